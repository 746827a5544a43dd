import Verif.Proofs.RoundIds
import Verif.Props.RoundHtml
/-! # C50, C52: documents with sections -/
namespace Jotdown
open Jotdown Jotdown.Notation Jotdown.Round

/-- **C50** with sections. Writing a document with headings and parsing the text gives back the document: the sections are nested as the levels tell, and the
ids are the automatic ones, unless attributes give others. -/
theorem C50_sections (d : Round.Doc) (h : d.Ok) (hu : Utf8 d.write) (hlen : d.write.length ≤ 4294967296) (es : List Event) (he : events d.write = .ok es) : es = d.events :=
  doc_write h hu hlen he

/-- **C50** with sections, and the parser known to finish: texts of less than 16 KiB. -/
theorem C50_sections_short (d : Round.Doc) (h : d.Ok) (hu : Utf8 d.write) (hlen : d.write.length < 16383) : events d.write = .ok d.events := by
  obtain ⟨evs, he⟩ := C31_no_panic_short d.write hu hlen
  have he' : events d.write = .ok (evs.map Prod.fst) := by unfold events; rw [he]; rfl
  rw [← doc_write h hu (by omega) he', he']

/-- A document with nested sections, titles of several lines, repeated titles and attributes. -/
def sampleSecs : Round.Doc :=
  ⟨[.para [.text (b! "a")], .list [.bullet .dash] true [[.para [.text (b! "b")]]]],
   [.mk ⟨2, b! "A-b", [.text (b! "A"), .soft, .elem .emphasis false [.text (b! "b")]], [.quote [.para [.text (b! "c")]]], []⟩
      [.mk ⟨3, b! "B", [.text (b! "B")], [], [([], [(.cls (b! "k"), [])])]⟩ [.mk ⟨5, b! "B-1", [.text (b! "B")], [.para [.text (b! "d")]], []⟩ []],
       .mk ⟨3, b! "s-1", [.esc (c! '*')], [.brk], []⟩ []],
    .mk ⟨1, b! "own", [.text (b! "B")], [], [([], [(.id (b! "x"), b! " "), (.cls (b! "c"), [])]), (b! " ", [(.id (b! "own"), [])])]⟩ []]⟩

theorem title_b : TitleOk [.text (b! "B")] := by
  refine ⟨⟨⟨by decide, by decide⟩, trivial⟩, rfl, rfl, ?_, ⟨_, rfl, rfl⟩⟩
  intro l hl
  have e : splitNl (prints [.text (b! "B")]) = [b! "B"] := by decide
  rw [e] at hl
  simp only [List.mem_cons, List.not_mem_nil, or_false] at hl
  subst hl
  exact ⟨_, rfl, rfl⟩

theorem noAttrs : AttrLinesOk [] := fun a h => by cases h
theorem someAttrs : AttrLinesOk [([], [(.cls (b! "k"), [])])] := by
  intro a h
  simp only [List.mem_cons, List.not_mem_nil, or_false] at h
  subst h
  exact ⟨by simp, ⟨(by decide : Attr.Name _), by decide, .inl rfl, trivial⟩, by decide +kernel⟩
theorem twoAttrs : AttrLinesOk [([], [(.id (b! "x"), b! " "), (.cls (b! "c"), [])]), (b! " ", [(.id (b! "own"), [])])] := by
  intro a h
  simp only [List.mem_cons, List.not_mem_nil, or_false] at h
  rcases h with rfl | rfl
  · exact ⟨by simp, ⟨(by decide : Attr.Name _), by decide, by simp, (by decide : Attr.Name _), by decide, .inl rfl, trivial⟩, by decide +kernel⟩
  · exact ⟨by decide, ⟨(by decide : Attr.Name _), by decide, .inl rfl, trivial⟩, by decide +kernel⟩

/-- The sample can be written. -/
theorem sampleSecs_ok : sampleSecs.Ok := by
  refine ⟨⟨letter_ok (c! 'a') (by decide), rfl, ⟨by simp, rfl, ?_, ?_, rfl, ⟨letter_ok (c! 'b') (by decide), rfl, trivial⟩, trivial⟩, rfl, trivial⟩,
    ⟨by decide, ⟨⟨by decide, by decide, ⟨⟨⟨by decide, by decide⟩, trivial, ⟨rfl, by decide, ⟨⟨_, rfl, rfl⟩, ⟨_, rfl, rfl⟩⟩, rfl, rfl, ⟨by decide, by decide⟩, trivial⟩, trivial⟩, rfl, rfl, ?_, ⟨c! '_', rfl, rfl⟩⟩,
        ⟨⟨by simp, letter_ok (c! 'c') (by decide), rfl, trivial⟩, rfl, trivial⟩, noAttrs⟩,
      by decide, ⟨⟨by decide, by decide, title_b, trivial, someAttrs⟩, by decide, ⟨⟨by decide, by decide, title_b, ⟨letter_ok (c! 'd') (by decide), rfl, trivial⟩, noAttrs⟩, trivial⟩, by simp, trivial⟩, ?_,
      by decide, ⟨⟨by decide, by decide, ⟨⟨(by decide : isPunct (c! '*') = true), trivial⟩, rfl, rfl, ?_, ⟨c! '*', rfl, rfl⟩⟩, ⟨trivial, rfl, trivial⟩, noAttrs⟩, trivial⟩, by simp, trivial⟩, ?_,
     by decide, ⟨⟨by decide, by decide, title_b, trivial, twoAttrs⟩, trivial⟩, by simp, trivial⟩, ?_⟩
  · simp [Label.Ok, Label.like]
  · exact sample_gaps (by decide +kernel)
  · intro l hl
    have e : splitNl (prints [.text (b! "A"), .soft, .elem .emphasis false [.text (b! "b")]]) = [b! "A\n", b! "_b_"] := by decide
    rw [e] at hl
    simp only [List.mem_cons, List.not_mem_nil, or_false] at hl
    rcases hl with rfl | rfl <;> exact ⟨_, rfl, rfl⟩
  · intro t ht; cases ht; decide
  · intro l hl
    have e : splitNl (prints [.esc (c! '*')]) = [b! "\\*"] := by decide
    rw [e] at hl
    simp only [List.mem_cons, List.not_mem_nil, or_false] at hl
    subst hl
    exact ⟨_, rfl, rfl⟩
  · intro t ht; cases ht; decide
  · have e : headingsOf sampleSecs.events = [⟨b! "A-b", [], [some (c! 'A'), none, some (c! 'b')]⟩, ⟨b! "B", [(.cls, b! "k")], [some (c! 'B')]⟩, ⟨b! "B-1", [], [some (c! 'B')]⟩, ⟨b! "s-1", [], [some (c! '*')]⟩, ⟨b! "own", [(.id, b! "x"), (.cls, b! "c"), (.id, b! "own")], [some (c! 'B')]⟩] := by decide
    rw [e]
    refine ⟨b! "A-b", .inl ⟨by decide, by decide, by decide⟩, by decide, b! "B", .inl ⟨by decide, by decide, by decide⟩, by decide, b! "B-1", .inr ⟨.inr (by decide), b! "B-", 1, by decide, by decide, by decide +kernel, by decide, by omega⟩, by decide,
      b! "s-1", .inr ⟨.inl (by decide), b! "s-", 1, by decide, by decide, by decide +kernel, by decide, by omega⟩, by decide, b! "B-2", .inr ⟨.inr (by decide), b! "B-", 2, by decide, by decide, by decide +kernel, by decide, ?_⟩, by decide +kernel, trivial⟩
    intro i h1 h2
    have : i = 1 := by omega
    subst this
    decide +kernel

/-- What the sample is written as. -/
example : sampleSecs.write = b! "a\n\n- b\n\n## A\n## _b_\n\n> c\n\n{.k}\n### B\n\n##### B\n\nd\n\n### \\*\n\n***\n\n{#x .c}\n{ #own}\n# B\n" := by decide +kernel

example : events sampleSecs.write = .ok sampleSecs.events := by decide +kernel

/-! ## HTML -/
namespace Round
open Jotdown.Html

mutual
/-- A section as a tree. -/
def Sec.node : Sec → Bool → List Node
  | .mk h subs, after => [.elem (.section h.id) (attrElems h.attrs) (.elem (.heading h.level true h.id) [] (inlNodes h.title) ::
      (blankNode (!h.body.isEmpty || (!subs.isEmpty || after)) ++ (blkNodes h.body (!subs.isEmpty || after) ++ secNodes subs after)))]
def secNodes : List Sec → Bool → List Node
  | [], _ => []
  | s :: ss, after => s.node (!ss.isEmpty || after) ++ secNodes ss after
end

/-- A document as a tree. -/
def Doc.nodes (d : Doc) : List Node := blkNodes d.front (!d.secs.isEmpty) ++ secNodes d.secs false

mutual
/-- A section as a tree, with adjacent texts joined. -/
def Sec.tree : Sec → Bool → List Node
  | .mk h subs, after => [.elem (.section h.id) (attrElems h.attrs) (.elem (.heading h.level true h.id) [] (joinNodes (inlNodes h.title)) ::
      (blankNode (!h.body.isEmpty || (!subs.isEmpty || after)) ++ (blkTrees h.body (!subs.isEmpty || after) ++ secTrees subs after)))]
def secTrees : List Sec → Bool → List Node
  | [], _ => []
  | s :: ss, after => s.tree (!ss.isEmpty || after) ++ secTrees ss after
end

mutual
theorem sec_tree_events (s : Sec) (after : Bool) : nodeEvents (s.tree after) = s.events after := by
  match s with
  | .mk h subs =>
    have := join_events (inlNodes h.title) [] trivial
    simp only [List.append_nil, joined, inls_node_events] at this
    simp [Sec.tree, nodeEvents, Node.events, Sec.events, Head.events, this, blank_events, nodeEvents_append, trees_events, sec_trees_events subs]
theorem sec_trees_events (ss : List Sec) (after : Bool) : nodeEvents (secTrees ss after) = secEvents ss after := by
  match ss with
  | [] => rfl
  | s :: ss => simp only [secTrees, nodeEvents_append, sec_tree_events s, sec_trees_events ss, secEvents]
end

mutual
/-- No task list in the section is given a class. -/
def Sec.taskOk : Sec → Bool
  | .mk h subs => blksTaskOk h.body && secsTaskOk subs
def secsTaskOk : List Sec → Bool
  | [] => true
  | s :: ss => s.taskOk && secsTaskOk ss
end

mutual
theorem sec_tree_covered (s : Sec) (after : Bool) (h : s.Ok) (ht : s.taskOk = true) : nodesCovered (s.tree after) = true := by
  match s with
  | .mk hd subs =>
    simp only [Sec.taskOk, Bool.and_eq_true] at ht
    have h1 := inls_covered hd.title [] h.1.2.2.1.1 [] rfl
    simp only [List.append_nil] at h1
    simp [Sec.tree, nodesCovered, Node.covered, classOk, h1, nodesCovered_append, blank_covered, trees_covered _ _ h.1.2.2.2.1 ht.1, sec_trees_covered subs after _ h.2 ht.2]
theorem sec_trees_covered (ss : List Sec) (after : Bool) (outer : Nat) (h : SecsOk outer ss) (ht : secsTaskOk ss = true) : nodesCovered (secTrees ss after) = true := by
  match ss with
  | [] => rfl
  | s :: ss =>
    simp only [secsTaskOk, Bool.and_eq_true] at ht
    simp only [secTrees, nodesCovered_append, sec_tree_covered s _ h.2.1 ht.1, sec_trees_covered ss _ _ h.2.2.2 ht.2, Bool.and_true]
end

mutual
theorem sec_sim (s : Sec) (after : Bool) : Sim (s.tree after) (s.node after) := by
  match s with
  | .mk hd subs =>
    simp only [Sec.tree, Sec.node]
    exact .elem rfl (.text rfl (joins_same hd.title) ((sim_blank _).append ((trees_sim hd.body _).append (secs_sim subs after)))) .nil
theorem secs_sim (ss : List Sec) (after : Bool) : Sim (secTrees ss after) (secNodes ss after) := by
  match ss with
  | [] => exact .nil
  | s :: ss => exact (sec_sim s _).append (secs_sim ss after)
end

/-- **C52** with sections: the written text of a document with headings is rendered as the HTML of the document. -/
theorem C52_sections (i : Option Indentation) (d : Doc) (h : d.Ok) (ht : blksTaskOk d.front = true ∧ secsTaskOk d.secs = true) (hu : Utf8 d.write) (hlen : d.write.length ≤ 4294967296) (es : List Event) (he : events d.write = .ok es) :
    ∃ Ls, TreeNotes d.nodes Ls ∧ (∀ Ls', TreeNotes d.nodes Ls' → Ls' = Ls) ∧ (Renderer.new i).output es = .ok (documentHtml i Ls d.nodes) := by
  rw [C50_sections d h hu hlen es he, Doc.events]
  have e0 : nodeEvents (blkTrees d.front (!d.secs.isEmpty) ++ secTrees d.secs false) = blkEvents d.front (!d.secs.isEmpty) ++ secEvents d.secs false := by
    rw [nodeEvents_append, trees_events, sec_trees_events]
  rw [← List.append_assoc, ← e0]
  obtain ⟨Ls, h1, h2⟩ := document_ok i [] (blkTrees d.front (!d.secs.isEmpty) ++ secTrees d.secs false) (by
    simp only [nodesCovered_append, trees_covered d.front _ h.1 ht.1, sec_trees_covered d.secs _ _ h.2.1 ht.2, Bool.and_self])
  have hs : Sim (blkTrees d.front (!d.secs.isEmpty) ++ secTrees d.secs false) d.nodes := (trees_sim d.front _).append (secs_sim d.secs false)
  have hn := hs.treeNotes h1
  exact ⟨Ls, hn, fun Ls' h' => h'.unique hn, by rw [h2, hs.document]⟩

example : TreeNotes sampleSecs.nodes [] := .done (by decide +kernel)

/-- The HTML of the sample. -/
example : documentHtml (some ⟨[], 0⟩) [] sampleSecs.nodes = b! "<p>a</p>\n<ul>\n<li>\nb\n</li>\n</ul>\n<section id=\"A-b\">\n<h2>A\n<em>b</em></h2>\n<blockquote>\n<p>c</p>\n</blockquote>\n<section class=\"k\" id=\"B\">\n<h3>B</h3>\n<section id=\"B-1\">\n<h5>B</h5>\n<p>d</p>\n</section>\n</section>\n<section id=\"s-1\">\n<h3>*</h3>\n<hr>\n</section>\n</section>\n<section id=\"own\" class=\"c\">\n<h1>B</h1>\n</section>\n" := by
  decide +kernel

end Round

end Jotdown
