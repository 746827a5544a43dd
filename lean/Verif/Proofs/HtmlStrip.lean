import Verif.Proofs.HtmlTree
/-! # The notes of a tree -/
namespace Jotdown.Html
open Jotdown

mutual
/-- Leaves are not starts or ends, and there is no document. -/
def Node.wf : Node → Bool
  | .leaf (.start ..) | .leaf (.end _) => false
  | .leaf _ => true
  | .elem c _ kids => c != .document && nodesWf kids
def nodesWf : List Node → Bool
  | [] => true
  | n :: ns => n.wf && nodesWf ns
end

theorem simple_wf {e : Event} (h : Event.simple e = true) : (Node.leaf e).wf = true := by
  cases e <;> first | rfl | simp [Event.simple] at h

mutual
theorem image_wf (n : Node) (h : n.imageOk = true) : n.wf = true ∧ n.noNotes = true := by
  match n with
  | .leaf e =>
    simp only [Node.imageOk, Bool.and_eq_true] at h
    exact ⟨simple_wf h.1, rfl⟩
  | .elem c a kids =>
    simp only [Node.imageOk, Bool.and_eq_true, Bool.not_eq_true', bne_iff_ne, ne_eq] at h
    obtain ⟨⟨hb, hd⟩, hk⟩ := h
    have := images_wf kids hk
    refine ⟨by simp [Node.wf, hd, this.1], ?_⟩
    cases c <;> first | (simp [isBlock] at hb; done) | simpa [Node.noNotes] using this.2
theorem images_wf (ns : List Node) (h : nodesImageOk ns = true) : nodesWf ns = true ∧ nodesNoNotes ns = true := by
  match ns with
  | [] => exact ⟨rfl, rfl⟩
  | n :: ns =>
    simp only [nodesImageOk, Bool.and_eq_true] at h
    have h1 := image_wf n h.1
    have h2 := images_wf ns h.2
    simp [nodesWf, nodesNoNotes, h1, h2]
end

mutual
theorem definition_wf (n : Node) (h : n.definitionOk = true) : n.wf = true ∧ n.noNotes = true := by
  match n with
  | .leaf e =>
    refine ⟨?_, rfl⟩
    cases e <;> first | rfl | simp [Node.definitionOk] at h
  | .elem c a kids =>
    have hk : nodesDefinitionOk kids = true := by cases c <;> simp [Node.definitionOk] at h <;> exact h
    have := definitions_wf kids hk
    cases c <;> first | (simp [Node.definitionOk] at h; done) | (simp [Node.wf, Node.noNotes, this])
theorem definitions_wf (ns : List Node) (h : nodesDefinitionOk ns = true) : nodesWf ns = true ∧ nodesNoNotes ns = true := by
  match ns with
  | [] => exact ⟨rfl, rfl⟩
  | n :: ns =>
    simp only [nodesDefinitionOk, Bool.and_eq_true] at h
    have h1 := definition_wf n h.1
    have h2 := definitions_wf ns h.2
    simp [nodesWf, nodesNoNotes, h1, h2]
end

theorem texts_wf (ns : List Node) (h : ns.all Node.isStr = true) : nodesWf ns = true ∧ nodesNoNotes ns = true := by
  induction ns with
  | nil => exact ⟨rfl, rfl⟩
  | cons n ns ih =>
    simp only [List.all_cons, Bool.and_eq_true] at h
    have h2 := ih h.2
    cases n with
    | elem => simp [Node.isStr] at h
    | leaf e => cases e <;> first | (simp [Node.isStr] at h; done) | simp [nodesWf, nodesNoNotes, Node.wf, Node.noNotes, h2]

mutual
theorem node_wf (n : Node) (h : n.covered = true) : n.wf = true := by
  match n with
  | .leaf e => exact simple_wf (by simpa [Node.covered] using h)
  | .elem c a kids =>
    simp only [Node.covered, Bool.and_eq_true] at h
    obtain ⟨_, h⟩ := h
    have h4 : c ≠ .document := by rintro rfl; simp at h
    have hk : nodesWf kids = true := by
      cases c with
      | document => exact absurd rfl h4
      | linkDefinition l => exact (definitions_wf kids h).1
      | rawBlock f => exact (texts_wf kids h).1
      | rawInline f => exact (texts_wf kids h).1
      | image s t => exact (images_wf kids h).1
      | _ => exact nodes_wf kids h
    simp [Node.wf, h4, hk]
theorem nodes_wf (ns : List Node) (h : nodesCovered ns = true) : nodesWf ns = true := by
  match ns with
  | [] => rfl
  | n :: ns =>
    simp only [nodesCovered, Bool.and_eq_true] at h
    simp [nodesWf, node_wf n h.1, nodes_wf ns h.2]
end

/-! ## Without footnotes -/

theorem elem_withoutNotes {c : Container} {attrs : Attr.Attributes} {kids : List Node} (h : ∀ l, c ≠ .footnote l) :
    (Node.elem c attrs kids).withoutNotes = [.elem c attrs (withoutNotes kids)] := by
  cases c <;> first | rfl | exact absurd rfl (h _)

theorem elem_notes {c : Container} {attrs : Attr.Attributes} {kids : List Node} (h : ∀ l, c ≠ .footnote l) :
    (Node.elem c attrs kids).notes = nodeNotes kids := by
  cases c <;> first | rfl | exact absurd rfl (h _)

mutual
theorem strip_id (n : Node) (h : n.noNotes = true) : n.withoutNotes = [n] := by
  match n with
  | .leaf e => rfl
  | .elem c a kids =>
    obtain ⟨h1, h2⟩ := elem_noNotes h
    rw [elem_withoutNotes h1, strips_id kids h2]
theorem strips_id (ns : List Node) (h : nodesNoNotes ns = true) : withoutNotes ns = ns := by
  match ns with
  | [] => rfl
  | n :: ns =>
    simp only [nodesNoNotes, Bool.and_eq_true] at h
    simp [withoutNotes, strip_id n h.1, strips_id ns h.2]
end

theorem noNotes_append (a b : List Node) : nodesNoNotes (a ++ b) = (nodesNoNotes a && nodesNoNotes b) := by
  induction a with
  | nil => simp [nodesNoNotes]
  | cons n a ih => simp [nodesNoNotes, ih, Bool.and_assoc]

theorem covered_append (a b : List Node) : nodesCovered (a ++ b) = (nodesCovered a && nodesCovered b) := by
  induction a with
  | nil => simp [nodesCovered]
  | cons n a ih => simp [nodesCovered, ih, Bool.and_assoc]

mutual
theorem strip_noNotes (n : Node) : nodesNoNotes n.withoutNotes = true := by
  match n with
  | .leaf e => rfl
  | .elem c a kids =>
    by_cases h : ∃ l, c = .footnote l
    · obtain ⟨l, rfl⟩ := h; rfl
    · rw [elem_withoutNotes (fun l e => h ⟨l, e⟩)]
      have := strips_noNotes kids
      cases c <;> first | exact absurd ⟨_, rfl⟩ h | simp [nodesNoNotes, Node.noNotes, this]
theorem strips_noNotes (ns : List Node) : nodesNoNotes (withoutNotes ns) = true := by
  match ns with
  | [] => rfl
  | n :: ns => simp [withoutNotes, noNotes_append, strip_noNotes n, strips_noNotes ns]
end

mutual
theorem strip_covered (n : Node) (h : n.covered = true) : nodesCovered n.withoutNotes = true := by
  match n with
  | .leaf e => simp [Node.withoutNotes, nodesCovered, h]
  | .elem c a kids =>
    by_cases hf : ∃ l, c = .footnote l
    · obtain ⟨l, rfl⟩ := hf; rfl
    · rw [elem_withoutNotes (fun l e => hf ⟨l, e⟩)]
      simp only [Node.covered, Bool.and_eq_true] at h
      obtain ⟨hc, h⟩ := h
      cases c with
      | document => simp at h
      | footnote l => exact absurd ⟨_, rfl⟩ hf
      | linkDefinition l => rw [strips_id kids (definitions_wf kids h).2]; simp [nodesCovered, Node.covered, h]; exact hc
      | rawBlock f => rw [strips_id kids (texts_wf kids h).2]; simp [nodesCovered, Node.covered]; exact ⟨hc, by simpa using h⟩
      | rawInline f => rw [strips_id kids (texts_wf kids h).2]; simp [nodesCovered, Node.covered]; exact ⟨hc, by simpa using h⟩
      | image s t => rw [strips_id kids (images_wf kids h).2]; simp [nodesCovered, Node.covered, h]; exact hc
      | _ => simp [nodesCovered, Node.covered, strips_covered kids h]; exact hc
theorem strips_covered (ns : List Node) (h : nodesCovered ns = true) : nodesCovered (withoutNotes ns) = true := by
  match ns with
  | [] => rfl
  | n :: ns =>
    simp only [nodesCovered, Bool.and_eq_true] at h
    simp [withoutNotes, covered_append, strip_covered n h.1, strips_covered ns h.2]
end

mutual
theorem notes_facts (n : Node) (h : n.covered = true) : ∀ p ∈ n.notes, nodesCovered p.2 = true ∧ nodesNoNotes p.2 = true := by
  match n with
  | .leaf e => simp [Node.notes]
  | .elem c a kids =>
    simp only [Node.covered, Bool.and_eq_true] at h
    obtain ⟨hc, h⟩ := h
    have nil : nodesNoNotes kids = true → nodeNotes kids = [] := noNotes_nil kids
    cases c with
    | document => simp at h
    | footnote l =>
      intro p hp
      simp only [Node.notes, List.mem_append, List.mem_singleton] at hp
      rcases hp with hp | rfl
      · exact nodesNotes_facts kids h p hp
      · exact ⟨strips_covered kids h, strips_noNotes kids⟩
    | linkDefinition l => rw [elem_notes (by simp), nil (definitions_wf kids h).2]; simp
    | rawBlock f => rw [elem_notes (by simp), nil (texts_wf kids h).2]; simp
    | rawInline f => rw [elem_notes (by simp), nil (texts_wf kids h).2]; simp
    | image s t => rw [elem_notes (by simp), nil (images_wf kids h).2]; simp
    | _ => rw [elem_notes (by simp)]; exact nodesNotes_facts kids h
theorem nodesNotes_facts (ns : List Node) (h : nodesCovered ns = true) : ∀ p ∈ nodeNotes ns, nodesCovered p.2 = true ∧ nodesNoNotes p.2 = true := by
  match ns with
  | [] => simp [nodeNotes]
  | n :: ns =>
    simp only [nodesCovered, Bool.and_eq_true] at h
    intro p hp
    simp only [nodeNotes, List.mem_append] at hp
    exact hp.elim (notes_facts n h.1 p) (nodesNotes_facts ns h.2 p)
theorem noNotes_nil1 (n : Node) (h : n.noNotes = true) : n.notes = [] := by
  match n with
  | .leaf e => rfl
  | .elem c a kids =>
    obtain ⟨h1, h2⟩ := elem_noNotes h
    rw [elem_notes h1]
    exact noNotes_nil kids h2
theorem noNotes_nil (ns : List Node) (h : nodesNoNotes ns = true) : nodeNotes ns = [] := by
  match ns with
  | [] => rfl
  | n :: ns =>
    simp only [nodesNoNotes, Bool.and_eq_true] at h
    simp [nodeNotes, noNotes_nil1 n h.1, noNotes_nil ns h.2]
end

/-! ## The events -/

mutual
theorem events_plain (n : Node) (h : n.wf = true) (hn : n.noNotes = true) : ∀ e ∈ n.events, NoFoot e ∧ e ≠ .end .document := by
  match n with
  | .leaf e =>
    intro x hx
    simp only [Node.events, List.mem_singleton] at hx
    subst hx
    refine ⟨⟨?_, ?_⟩, ?_⟩ <;> (intros; rintro rfl; simp [Node.wf] at h)
  | .elem c a kids =>
    obtain ⟨h1, h2⟩ := elem_noNotes hn
    simp only [Node.wf, Bool.and_eq_true, bne_iff_ne, ne_eq] at h
    intro x hx
    simp only [Node.events, List.mem_cons, List.mem_append, List.not_mem_nil, or_false] at hx
    rcases hx with rfl | hx | rfl
    · exact ⟨⟨fun l b e => by injection e with e _; exact h1 l e, by simp⟩, by simp⟩
    · exact nodeEvents_plain kids h.2 h2 x hx
    · exact ⟨⟨by simp, fun l e => by injection e with e; exact h1 l e⟩, fun e => by injection e with e; exact h.1 e⟩
theorem nodeEvents_plain (ns : List Node) (h : nodesWf ns = true) (hn : nodesNoNotes ns = true) : ∀ e ∈ nodeEvents ns, NoFoot e ∧ e ≠ .end .document := by
  match ns with
  | [] => simp [nodeEvents]
  | n :: ns =>
    simp only [nodesWf, nodesNoNotes, Bool.and_eq_true] at h hn
    intro x hx
    simp only [nodeEvents, List.mem_append] at hx
    exact hx.elim (events_plain n h.1 hn.1 x) (nodeEvents_plain ns h.2 hn.2 x)
end

mutual
theorem events_noDoc (n : Node) (h : n.wf = true) : ∀ e ∈ n.events, e ≠ .end .document := by
  match n with
  | .leaf e =>
    intro x hx
    simp only [Node.events, List.mem_singleton] at hx
    subst hx
    rintro rfl; simp [Node.wf] at h
  | .elem c a kids =>
    simp only [Node.wf, Bool.and_eq_true, bne_iff_ne, ne_eq] at h
    intro x hx
    simp only [Node.events, List.mem_cons, List.mem_append, List.not_mem_nil, or_false] at hx
    rcases hx with rfl | hx | rfl
    · simp
    · exact nodeEvents_noDoc kids h.2 x hx
    · exact fun e => by injection e with e; exact h.1 e
theorem nodeEvents_noDoc (ns : List Node) (h : nodesWf ns = true) : ∀ e ∈ nodeEvents ns, e ≠ .end .document := by
  match ns with
  | [] => simp [nodeEvents]
  | n :: ns =>
    simp only [nodesWf, Bool.and_eq_true] at h
    intro x hx
    simp only [nodeEvents, List.mem_append] at hx
    exact hx.elim (events_noDoc n h.1 x) (nodeEvents_noDoc ns h.2 x)
end

theorem nodeEvents_append (a b : List Node) : nodeEvents (a ++ b) = nodeEvents a ++ nodeEvents b := by
  induction a with
  | nil => rfl
  | cons n a ih => simp [nodeEvents, ih]

/-- The notes of a tree as events. -/
def noteEvents (N : List (Bytes × List Node)) : List (Bytes × List Event) := N.map (fun p => (p.1, nodeEvents p.2))

/-- The footnotes open after a tree. -/
def notesOpen (op : List (Bytes × List Event)) (es : List Event) : List (Bytes × List Event) :=
  match op with
  | [] => []
  | (l, evs) :: rest => (l, evs ++ es) :: rest

theorem notesOpen_append (op : List (Bytes × List Event)) (a b : List Event) : notesOpen (notesOpen op a) b = notesOpen op (a ++ b) := by
  cases op with
  | nil => rfl
  | cons p rest => simp [notesOpen]

theorem notesOf_one {op : List (Bytes × List Event)} {e : Event} {es : List Event} (h : NoFoot e) : notesOf op (e :: es) = notesOf (notesOpen op [e]) es := by
  rw [notesOf_cons h]
  cases op with
  | nil => rfl
  | cons p rest => rfl

mutual
theorem notesOf_node (n : Node) (h : n.wf = true) (op : List (Bytes × List Event)) (rest : List Event) :
    notesOf op (n.events ++ rest) = noteEvents n.notes ++ notesOf (notesOpen op (nodeEvents n.withoutNotes)) rest := by
  match n with
  | .leaf e =>
    have hf := (events_plain (.leaf e) h rfl e (by simp [Node.events])).1
    simp only [Node.events, List.singleton_append, notesOf_one hf, Node.notes, noteEvents, List.map_nil, List.nil_append, Node.withoutNotes, nodeEvents, List.append_nil]
  | .elem c a kids =>
    simp only [Node.wf, Bool.and_eq_true, bne_iff_ne, ne_eq] at h
    by_cases hf : ∃ l, c = .footnote l
    · obtain ⟨l, rfl⟩ := hf
      have := notesOf_nodes kids h.2 ((l, []) :: op) (.end (.footnote l) :: rest)
      simp only [Node.events, List.cons_append, notesOf, List.append_assoc, List.nil_append, Node.notes, Node.withoutNotes, nodeEvents, this, notesOpen, noteEvents, List.map_append, List.map_cons, List.map_nil]
      cases op <;> simp
    · have hf' : ∀ l, c ≠ .footnote l := fun l e => hf ⟨l, e⟩
      have h1 : NoFoot (.start c a) := ⟨fun l b e => by injection e with e _; exact hf' l e, by simp⟩
      have h2 : NoFoot (.end c) := ⟨by simp, fun l e => by injection e with e; exact hf' l e⟩
      rw [elem_notes hf', elem_withoutNotes hf']
      simp only [Node.events, List.cons_append, List.append_assoc, List.nil_append]
      rw [notesOf_one h1, notesOf_nodes kids h.2, notesOf_one h2, notesOpen_append, notesOpen_append]
      simp [nodeEvents, Node.events]
theorem notesOf_nodes (ns : List Node) (h : nodesWf ns = true) (op : List (Bytes × List Event)) (rest : List Event) :
    notesOf op (nodeEvents ns ++ rest) = noteEvents (nodeNotes ns) ++ notesOf (notesOpen op (nodeEvents (withoutNotes ns))) rest := by
  match ns with
  | [] => cases op <;> simp [nodeEvents, nodeNotes, withoutNotes, notesOpen, noteEvents]
  | n :: ns =>
    simp only [nodesWf, Bool.and_eq_true] at h
    simp only [nodeEvents, nodeNotes, withoutNotes, List.append_assoc]
    rw [notesOf_node n h.1, notesOf_nodes ns h.2, notesOpen_append, nodeEvents_append]
    simp [noteEvents]
end

theorem noteOf_content (N : List (Bytes × List Node)) (l : Bytes) : noteOf (noteEvents N) l = nodeEvents (noteContent N l) := by
  unfold noteOf noteContent noteEvents
  have : ((N.map (fun p => (p.1, nodeEvents p.2))).filter (fun p => p.1 == l)) = (N.filter (fun p => p.1 == l)).map (fun p => (p.1, nodeEvents p.2)) := by
    rw [List.filter_map]; rfl
  rw [this, List.getLast?_map]
  cases (N.filter (fun p => p.1 == l)).getLast? <;> rfl

/-- The notes put aside for a tree. -/
theorem notes_tree {ns : List Node} (h : nodesWf ns = true) (l : Bytes) : noteOf (notesOf [] (nodeEvents ns)) l = nodeEvents (noteContent (nodeNotes ns) l) := by
  have := notesOf_nodes ns h [] []
  simp only [List.append_nil, notesOpen, notesOf] at this
  rw [this, noteOf_content]

theorem content_facts {ns : List Node} (h : nodesCovered ns = true) (l : Bytes) :
    nodesCovered (noteContent (nodeNotes ns) l) = true ∧ nodesNoNotes (noteContent (nodeNotes ns) l) = true := by
  unfold noteContent
  cases hg : ((nodeNotes ns).filter (fun p => p.1 == l)).getLast? with
  | none => exact ⟨rfl, rfl⟩
  | some p =>
    have := List.mem_of_getLast? hg
    exact nodesNotes_facts ns h p (List.mem_filter.1 this).1

end Jotdown.Html
