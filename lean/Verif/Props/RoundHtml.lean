import Verif.Props.HtmlTree
import Verif.Props.Round
/-! # C52: from text to HTML -/
namespace Jotdown.Round
open Jotdown Jotdown.Notation Jotdown.Html

/-- An element with the given content; a quotation is between quotation marks. -/
def Mark.wrap : Mark → List Node → List Node
  | .emphasis, ns => [.elem .emphasis [] ns]
  | .strong, ns => [.elem .strong [] ns]
  | .superscript, ns => [.elem .superscript [] ns]
  | .subscript, ns => [.elem .subscript [] ns]
  | .highlight, ns => [.elem .mark [] ns]
  | .insert, ns => [.elem .insert [] ns]
  | .delete, ns => [.elem .delete [] ns]
  | .single, ns => .leaf .leftSingleQuote :: (ns ++ [.leaf .rightSingleQuote])
  | .double, ns => .leaf .leftDoubleQuote :: (ns ++ [.leaf .rightDoubleQuote])

mutual
/-- Inline content as a tree. -/
def Inl.nodes : Inl → List Node
  | .text s => [.leaf (.str s)]
  | .esc c => [.leaf .escape, .leaf (.str [c])]
  | .soft => [.leaf .softbreak]
  | .hard => [.leaf .escape, .leaf .hardbreak]
  | .nbsp => [.leaf .escape, .leaf .nonBreakingSpace]
  | .dots => [.leaf .ellipsis]
  | .dash em => [.leaf (if em then .emDash else .enDash)]
  | .right double => [.leaf (if double then .rightDoubleQuote else .rightSingleQuote)]
  | .apos => [.leaf .rightSingleQuote]
  | .symbol s => [.leaf (.symbol s)]
  | .note s => [.leaf (.footnoteReference s)]
  | .auto u => [.elem (autoTo u) [] [.leaf (.str u)]]
  | .code v _ s => [.elem v.container [] [.leaf (.str s)]]
  | .elem m _ body => m.wrap (inlNodes body)
  | .link image body url => [.elem (linkTo image url) [] (inlNodes body)]
def inlNodes : List Inl → List Node
  | [] => []
  | i :: is => i.nodes ++ inlNodes is
end

/-- A blank line after a block. -/
def blankNode (after : Bool) : List Node := if after then [.leaf .blankline] else []

/-- Cells as trees, from column `i` on; `text` tells the tree of the content of a cell. -/
def cellNodes (text : List Inl → List Node) (als : List Alignment) (head : Bool) (i : Nat) : List (List Inl) → List Node
  | [] => []
  | c :: cs => .elem (.tableCell ((als[i]?).getD .unspecified) head) [] (text c) :: cellNodes text als head (i + 1) cs

/-- The rows of a table as trees: a row before a separator is a head row, and a separator gives the alignments of it and the following rows. -/
def rowNodes (text : List Inl → List Node) (als : List Alignment) : List TabLine → List Node
  | [] => []
  | .sep a :: ls => rowNodes text a ls
  | .row cells :: ls =>
    (match headAls ls with
      | some a => .elem (.tableRow true) [] (cellNodes text a true 0 cells)
      | none => .elem (.tableRow false) [] (cellNodes text als false 0 cells)) :: rowNodes text als ls

/-- The caption of a table, if there is one, as a tree. -/
def capNodes (text : List Inl → List Node) (cap : List Inl) : List Node :=
  if cap.isEmpty then [] else [.elem .caption [] (text cap)]

/-- The term of an item of a description list as a tree: it is the first paragraph of the item. -/
def termNodes (text : List Inl → List Node) : List Blk → Bool → List Node
  | .para is :: bs, after => .elem .descriptionTerm [] (text is) :: blankNode (!bs.isEmpty || after)
  | _, _ => []

mutual
/-- A block with the given attributes as a tree. The blank line after a list belongs to the last item, after a footnote to the footnote. -/
def Blk.node : Blk → Attr.Attributes → Bool → List Node
  | .para is, as, after => .elem .paragraph as (inlNodes is) :: blankNode after
  | .brk, as, after => .leaf (.thematicBreak as) :: blankNode after
  | .code _ lang ls, as, after => .elem (codeOf lang) as ((codeTexts lang ls).map (fun l => .leaf (.str l))) :: blankNode after
  | .quote bs, as, after => .elem .blockquote as (blkNodes bs false) :: blankNode after
  | .div _ cls bs, as, after => .elem (.div cls) as (blkNodes bs false) :: blankNode after
  | .list lbs tight items, as, after => [.elem (listOf lbs (isTight tight items)) as (itemNodes lbs tight items after)]
  | .foot label bs, as, after => [.elem (.footnote label) as (blkNodes bs after)]
  | .table cap ls, as, after => .elem .table as (capNodes inlNodes cap ++ rowNodes inlNodes [] ls) :: blankNode after
  | .attr _ is b, as, after => b.node (as ++ is.map (·.1.elem)) after
def blkNodes : List Blk → Bool → List Node
  | [], _ => []
  | b :: bs, after => b.node [] (!bs.isEmpty || after) ++ blkNodes bs after
def restNodes : List Blk → Bool → List Node
  | [], _ => []
  | _ :: bs, after => blkNodes bs after
def itemNodes : List Label → Bool → List (List Blk) → Bool → List Node
  | lb :: lbs, tight, it :: its, after =>
    (if lb.isDesc then termNodes inlNodes it (if its.isEmpty then after else !tight) ++ [.elem lb.item [] (restNodes it (if its.isEmpty then after else !tight))]
      else [.elem lb.item [] (blkNodes it (if its.isEmpty then after else !tight))]) ++ itemNodes lbs tight its after
  | _, _, _, _ => []
end

/-! ## Joining adjacent texts does not change the HTML -/

/-- Put a text before nodes. -/
def consStr (a : Bytes) (ns : List Node) : List Node :=
  if a = [] then ns
  else match ns with
    | .leaf (.str b) :: ns' => .leaf (.str (a ++ b)) :: ns'
    | ns' => .leaf (.str a) :: ns'

mutual
def joinNode : Node → Node
  | .leaf e => .leaf e
  | .elem c a kids => .elem c a (joinNodes kids)
def joinNodes : List Node → List Node
  | [] => []
  | .leaf (.str a) :: ns => consStr a (joinNodes ns)
  | n :: ns => joinNode n :: joinNodes ns
end

/-- Does not start with text. -/
def noStr : List Event → Prop
  | .str _ :: _ => False
  | _ => True

theorem joined_cons_other {e : Event} (h : ∀ s, e ≠ .str s) (es : List Event) : joined (e :: es) = e :: joined es := by
  cases e <;> first | rfl | exact absurd rfl (h _)

theorem noStr_joined {t : List Event} (h : noStr t) : noStr (joined t) := by
  cases t with
  | nil => exact trivial
  | cons e t =>
    rw [joined_cons_other (by rintro s rfl; exact h)]
    cases e <;> first | exact trivial | exact h

/-- What a text before nodes is, in events. -/
theorem consStr_events (a : Bytes) (ns : List Node) (t : List Event) (ht : noStr t) :
    nodeEvents (consStr a ns) ++ t = if a = [] then nodeEvents ns ++ t else
      match nodeEvents ns ++ t with
      | .str b :: es' => .str (a ++ b) :: es'
      | es' => .str a :: es' := by
  unfold consStr
  split
  · rfl
  · cases ns with
    | nil =>
      simp only [nodeEvents, Node.events, List.nil_append, List.append_nil, List.cons_append]
      cases t with
      | nil => rfl
      | cons e t => cases e <;> first | rfl | exact absurd ht (by simp [noStr])
    | cons n ns =>
      cases n with
      | leaf e => cases e <;> simp [nodeEvents, Node.events]
      | elem c at' k => simp [nodeEvents, Node.events]

theorem joined_str' (a : Bytes) (es : List Event) : joined (.str a :: es) = if a = [] then joined es else
    match joined es with
      | .str b :: es' => .str (a ++ b) :: es'
      | es' => .str a :: es' := by
  conv => lhs; unfold joined
  rfl

mutual
theorem join_event (n : Node) (hn : ∀ s, n ≠ .leaf (.str s)) (t : List Event) : joined (n.events ++ t) = (joinNode n).events ++ joined t := by
  match n with
  | .leaf e => exact joined_cons_other (by rintro s rfl; exact hn s rfl) t
  | .elem c a kids =>
    simp only [Node.events, joinNode, List.cons_append, List.append_assoc, List.nil_append]
    rw [joined_cons_other (by simp), join_events kids (.end c :: t) trivial, joined_cons_other (by simp)]
theorem join_events (ns : List Node) (t : List Event) (ht : noStr t) : joined (nodeEvents ns ++ t) = nodeEvents (joinNodes ns) ++ joined t := by
  match ns with
  | [] => rfl
  | .leaf (.str a) :: ns =>
    simp only [nodeEvents, Node.events, joinNodes, List.cons_append, List.nil_append]
    rw [joined_str', join_events ns t ht, consStr_events a _ _ (noStr_joined ht)]
  | .elem c a kids :: ns =>
    rw [show joinNodes (.elem c a kids :: ns) = joinNode (.elem c a kids) :: joinNodes ns by simp only [joinNodes]]
    simp only [nodeEvents, List.append_assoc]
    rw [join_event _ (by simp) _, join_events ns t ht]
  | .leaf e :: ns =>
    by_cases h : ∃ s, e = .str s
    · obtain ⟨a, rfl⟩ := h
      simp only [nodeEvents, Node.events, joinNodes, List.cons_append, List.nil_append]
      rw [joined_str', join_events ns t ht, consStr_events a _ _ (noStr_joined ht)]
    · have e1 : joinNodes (.leaf e :: ns) = joinNode (.leaf e) :: joinNodes ns := by
        rw [joinNodes]
        rintro a h'
        injection h' with h'
        exact h ⟨a, h'⟩
      rw [e1]
      simp only [nodeEvents, List.append_assoc]
      rw [join_event _ (by rintro s h'; injection h' with h'; exact h ⟨s, h'⟩) _, join_events ns t ht]
end

mutual
theorem inl_node_events (i : Inl) : nodeEvents i.nodes = i.events := by
  match i with
  | .elem m _ body =>
    have : ∀ a b : List Node, nodeEvents (a ++ b) = nodeEvents a ++ nodeEvents b := by
      intro a b
      induction a with
      | nil => rfl
      | cons n a ih => simp [nodeEvents, ih]
    cases m <;> simp [Inl.nodes, Mark.wrap, nodeEvents, Node.events, Inl.events, Mark.starts, Mark.ends, this, inls_node_events body]
  | .link image body url => simp [Inl.nodes, nodeEvents, Node.events, Inl.events, inls_node_events body]
  | .hard => rfl
  | .nbsp => rfl
  | .dots => rfl
  | .dash em => rfl
  | .symbol s => rfl
  | .right q => rfl
  | .apos => rfl
  | .note s => rfl
  | .auto u => rfl
  | .text s => rfl
  | .esc c => rfl
  | .soft => rfl
  | .code v n s => rfl
theorem inls_node_events (is : List Inl) : nodeEvents (inlNodes is) = inlEvents is := by
  match is with
  | [] => rfl
  | i :: is =>
    have : ∀ a b : List Node, nodeEvents (a ++ b) = nodeEvents a ++ nodeEvents b := by
      intro a b
      induction a with
      | nil => rfl
      | cons n a ih => simp [nodeEvents, ih]
    simp only [inlNodes, inlEvents, this, inl_node_events i, inls_node_events is]
end

theorem consStr_html (i : Option Indentation) (Ls : List Bytes) (tight : Bool) (d : Nat) (a : Bytes) (ns : List Node) :
    nodeHtml i Ls false tight d (consStr a ns) = escText a ++ nodeHtml i Ls false tight d ns := by
  unfold consStr
  split
  · rename_i h; subst h; rfl
  · split
    · simp [nodeHtml, Node.html, leafHtml, escText]
    · simp [nodeHtml, Node.html, leafHtml]

theorem link_html (url : Bytes) (ty : LinkType) (i : Option Indentation) (Ls : List Bytes) (f tight : Bool) (d : Nat) (kids : List Node) :
    (Node.elem (.link url ty) [] kids).html i Ls f tight d = startTag (.link url ty) [] ++ nodeHtml i Ls false tight d kids ++ endTag (.link url ty) := by
  simp [Node.html, isBlockContainer, isBlock, innerStart, innerEnd]

/-! Joining texts does not change the text of images -/

theorem consStr_alts (i : Option Indentation) (d : Nat) (a : Bytes) (ns : List Node) : nodeAlts i d (consStr a ns) = escValue a ++ nodeAlts i d ns := by
  unfold consStr
  split
  · rename_i h; subst h; rfl
  · split
    · simp [nodeAlts, Node.alt, escValue]
    · simp [nodeAlts, Node.alt]

mutual
theorem join_alts (x : Inl) (i : Option Indentation) (d : Nat) (ns : List Node) : nodeAlts i d (joinNodes (x.nodes ++ ns)) = nodeAlts i d x.nodes ++ nodeAlts i d (joinNodes ns) := by
  match x with
  | .text s => simp [Inl.nodes, joinNodes, consStr_alts, nodeAlts, Node.alt]
  | .esc c => simp [Inl.nodes, joinNodes, joinNode, consStr_alts, nodeAlts, Node.alt, leafHtml]
  | .soft => simp [Inl.nodes, joinNodes, joinNode, nodeAlts, Node.alt]
  | .hard => simp [Inl.nodes, joinNodes, joinNode, nodeAlts, Node.alt]
  | .nbsp => simp [Inl.nodes, joinNodes, joinNode, nodeAlts, Node.alt]
  | .dots => simp [Inl.nodes, joinNodes, joinNode, nodeAlts, Node.alt]
  | .dash em => cases em <;> simp [Inl.nodes, joinNodes, joinNode, nodeAlts, Node.alt]
  | .symbol s => simp [Inl.nodes, joinNodes, joinNode, nodeAlts, Node.alt]
  | .auto u => simp [Inl.nodes, joinNodes, joinNode, consStr_alts, nodeAlts, Node.alt]
  | .code v n s => simp [Inl.nodes, joinNodes, joinNode, consStr_alts, nodeAlts, Node.alt]
  | .right q => cases q <;> simp [Inl.nodes, joinNodes, joinNode, nodeAlts, Node.alt]
  | .apos => simp [Inl.nodes, joinNodes, joinNode, nodeAlts, Node.alt]
  | .note s => simp [Inl.nodes, joinNodes, joinNode, nodeAlts, Node.alt]
  | .elem m _ body =>
    have h0 := joins_alts body i d []
    have h1 : ∀ e, nodeAlts i d (joinNodes (inlNodes body ++ (.leaf e :: ns))) = nodeAlts i d (inlNodes body) ++ nodeAlts i d (joinNodes (.leaf e :: ns)) := fun e => joins_alts body i d _
    have h2 : ∀ a b : List Node, nodeAlts i d (a ++ b) = nodeAlts i d a ++ nodeAlts i d b := by
      intro a b
      induction a with
      | nil => rfl
      | cons n a ih => simp [nodeAlts, ih]
    simp only [List.append_nil, joinNodes, nodeAlts] at h0
    cases m <;> simp [Inl.nodes, Mark.wrap, joinNodes, joinNode, nodeAlts, Node.alt, h0, h1, h2]
  | .link image body url =>
    have h0 := joins_alts body i d []
    simp only [List.append_nil, joinNodes, nodeAlts] at h0
    simp only [Inl.nodes, joinNodes, joinNode, nodeAlts, Node.alt, List.cons_append, List.nil_append, h0, List.append_nil]
theorem joins_alts (is : List Inl) (i : Option Indentation) (d : Nat) (ns : List Node) :
    nodeAlts i d (joinNodes (inlNodes is ++ ns)) = nodeAlts i d (inlNodes is) ++ nodeAlts i d (joinNodes ns) := by
  match is with
  | [] => rfl
  | x :: is =>
    have : ∀ a b : List Node, nodeAlts i d (a ++ b) = nodeAlts i d a ++ nodeAlts i d b := by
      intro a b
      induction a with
      | nil => rfl
      | cons n a ih => simp [nodeAlts, ih]
    simp only [inlNodes, List.append_assoc, join_alts x, joins_alts is, this]
end

mutual
theorem join_html (x : Inl) (i : Option Indentation) (Ls : List Bytes) (tight : Bool) (d : Nat) (ns : List Node) :
    nodeHtml i Ls false tight d (joinNodes (x.nodes ++ ns)) = nodeHtml i Ls false tight d x.nodes ++ nodeHtml i Ls false tight d (joinNodes ns) := by
  match x with
  | .text s => simp [Inl.nodes, joinNodes, consStr_html, nodeHtml, Node.html, leafHtml]
  | .esc c => simp [Inl.nodes, joinNodes, joinNode, consStr_html, nodeHtml, Node.html, leafHtml]
  | .soft => simp [Inl.nodes, joinNodes, joinNode, nodeHtml, Node.html, leafHtml]
  | .code v n s =>
    have hr : nodeRaw (consStr s []) = s := by
      unfold consStr
      by_cases hs : s = []
      · subst hs; rfl
      · simp [hs, nodeRaw]
    cases v with
    | plain =>
      simp only [Inl.nodes, Verb.container, joinNodes, joinNode, nodeHtml, Node.html, isBlockContainer, isBlock, List.cons_append, List.nil_append]
      simp [consStr_html, nodeHtml, Node.html, leafHtml]
    | raw f => simp [Inl.nodes, Verb.container, joinNodes, joinNode, nodeHtml, Node.html, hr, nodeRaw]
    | math display =>
      simp only [Inl.nodes, Verb.container, joinNodes, joinNode, nodeHtml, Node.html, isBlockContainer, isBlock, List.cons_append, List.nil_append]
      simp [consStr_html, nodeHtml, Node.html, leafHtml]
  | .hard => simp [Inl.nodes, joinNodes, joinNode, nodeHtml, Node.html, leafHtml]
  | .nbsp => simp [Inl.nodes, joinNodes, joinNode, nodeHtml, Node.html, leafHtml]
  | .dots => simp [Inl.nodes, joinNodes, joinNode, nodeHtml, Node.html, leafHtml]
  | .dash em => cases em <;> simp [Inl.nodes, joinNodes, joinNode, nodeHtml, Node.html, leafHtml]
  | .symbol s => simp [Inl.nodes, joinNodes, joinNode, nodeHtml, Node.html, leafHtml]
  | .auto u =>
    simp only [Inl.nodes, joinNodes, joinNode, nodeHtml, List.cons_append, List.nil_append, autoTo, link_html]
    simp [consStr_html, nodeHtml, Node.html, leafHtml]
  | .right q => cases q <;> simp [Inl.nodes, joinNodes, joinNode, nodeHtml, Node.html, leafHtml]
  | .apos => simp [Inl.nodes, joinNodes, joinNode, nodeHtml, Node.html, leafHtml]
  | .note s => simp [Inl.nodes, joinNodes, joinNode, nodeHtml, Node.html, leafHtml]
  | .elem m _ body =>
    have h0 := joins_html body i Ls tight d []
    have h1 : ∀ e, nodeHtml i Ls false tight d (joinNodes (inlNodes body ++ (.leaf e :: ns))) = nodeHtml i Ls false tight d (inlNodes body) ++ nodeHtml i Ls false tight d (joinNodes (.leaf e :: ns)) :=
      fun e => joins_html body i Ls tight d _
    have h2 : ∀ a b : List Node, nodeHtml i Ls false tight d (a ++ b) = nodeHtml i Ls false tight d a ++ nodeHtml i Ls false tight d b := by
      intro a b
      induction a with
      | nil => rfl
      | cons n a ih => simp [nodeHtml, ih]
    simp only [List.append_nil, joinNodes, nodeHtml] at h0
    cases m <;> simp [Inl.nodes, Mark.wrap, joinNodes, joinNode, nodeHtml, Node.html, isBlockContainer, isBlock, innerStart, innerEnd, leafHtml, h0, h1, h2]
  | .link false body url =>
    have h0 := joins_html body i Ls tight d []
    simp only [List.append_nil, joinNodes, nodeHtml] at h0
    simp only [Inl.nodes, joinNodes, joinNode, nodeHtml, List.cons_append, List.nil_append, linkTo, Bool.false_eq_true, if_false, link_html, h0, List.append_nil, Bool.false_and]
  | .link true body url =>
    have h0 := joins_alts body i d []
    simp only [List.append_nil, joinNodes, nodeAlts] at h0
    simp only [Inl.nodes, joinNodes, joinNode, nodeHtml, List.cons_append, List.nil_append, linkTo, if_true, Node.html, h0, List.append_nil, Bool.false_and]
theorem joins_html (is : List Inl) (i : Option Indentation) (Ls : List Bytes) (tight : Bool) (d : Nat) (ns : List Node) :
    nodeHtml i Ls false tight d (joinNodes (inlNodes is ++ ns)) = nodeHtml i Ls false tight d (inlNodes is) ++ nodeHtml i Ls false tight d (joinNodes ns) := by
  match is with
  | [] => rfl
  | x :: is =>
    have : ∀ a b : List Node, nodeHtml i Ls false tight d (a ++ b) = nodeHtml i Ls false tight d a ++ nodeHtml i Ls false tight d b := by
      intro a b
      induction a with
      | nil => rfl
      | cons n a ih => simp [nodeHtml, ih]
    simp only [inlNodes, List.append_assoc, join_html x, joins_html is, this]
end

/-! ## Blocks -/

mutual
/-- A block with the given attributes as a tree, with adjacent texts joined. -/
def Blk.tree : Blk → Attr.Attributes → Bool → List Node
  | .para is, as, after => .elem .paragraph as (joinNodes (inlNodes is)) :: blankNode after
  | .brk, as, after => .leaf (.thematicBreak as) :: blankNode after
  | .code _ lang ls, as, after => .elem (codeOf lang) as ((codeTexts lang ls).map (fun l => .leaf (.str l))) :: blankNode after
  | .quote bs, as, after => .elem .blockquote as (blkTrees bs false) :: blankNode after
  | .div _ cls bs, as, after => .elem (.div cls) as (blkTrees bs false) :: blankNode after
  | .list lbs tight items, as, after => [.elem (listOf lbs (isTight tight items)) as (itemTrees lbs tight items after)]
  | .foot label bs, as, after => [.elem (.footnote label) as (blkTrees bs after)]
  | .table cap ls, as, after => .elem .table as (capNodes (fun c => joinNodes (inlNodes c)) cap ++ rowNodes (fun c => joinNodes (inlNodes c)) [] ls) :: blankNode after
  | .attr _ is b, as, after => b.tree (as ++ is.map (·.1.elem)) after
def blkTrees : List Blk → Bool → List Node
  | [], _ => []
  | b :: bs, after => b.tree [] (!bs.isEmpty || after) ++ blkTrees bs after
def restTrees : List Blk → Bool → List Node
  | [], _ => []
  | _ :: bs, after => blkTrees bs after
def itemTrees : List Label → Bool → List (List Blk) → Bool → List Node
  | lb :: lbs, tight, it :: its, after =>
    (if lb.isDesc then termNodes (fun c => joinNodes (inlNodes c)) it (if its.isEmpty then after else !tight) ++ [.elem lb.item [] (restTrees it (if its.isEmpty then after else !tight))]
      else [.elem lb.item [] (blkTrees it (if its.isEmpty then after else !tight))]) ++ itemTrees lbs tight its after
  | _, _, _, _ => []
end

theorem code_events (ls : List Bytes) : nodeEvents (ls.map (fun l => Node.leaf (.str l))) = ls.map Event.str := by
  induction ls with
  | nil => rfl
  | cons l ls ih => simp [nodeEvents, Node.events, ih]

theorem blank_events (after : Bool) : nodeEvents (blankNode after) = blankAfter after := by cases after <;> rfl

theorem cells_events (als : List Alignment) (head : Bool) (i : Nat) (cells : List (List Inl)) :
    nodeEvents (cellNodes (fun c => joinNodes (inlNodes c)) als head i cells) = cellsEvents als head i cells := by
  induction cells generalizing i with
  | nil => rfl
  | cons c cells ih =>
    have := join_events (inlNodes c) [] trivial
    simp only [List.append_nil, joined, inls_node_events] at this
    simp [cellNodes, cellsEvents, nodeEvents, Node.events, this, ih]

theorem rows_events (als : List Alignment) (ls : List TabLine) : nodeEvents (rowNodes (fun c => joinNodes (inlNodes c)) als ls) = tabEvents als ls := by
  induction ls generalizing als with
  | nil => rfl
  | cons l ls ih =>
    cases l with
    | sep a => exact ih a
    | row cells => cases hh : headAls ls <;> simp [rowNodes, tabEvents, hh, rowEvs, nodeEvents, Node.events, cells_events, ih]

theorem caps_events (cap : List Inl) (ns : List Node) : nodeEvents (capNodes (fun c => joinNodes (inlNodes c)) cap ++ ns) = capEvents cap ++ nodeEvents ns := by
  have := join_events (inlNodes cap) [] trivial
  simp only [List.append_nil, joined, inls_node_events] at this
  unfold capNodes capEvents
  cases hc : cap.isEmpty <;> simp [nodeEvents, Node.events, this]

theorem term_events (bs : List Blk) (after : Bool) : nodeEvents (termNodes (fun c => joinNodes (inlNodes c)) bs after) = termEvents bs after := by
  match bs with
  | .para is :: bs =>
    have := join_events (inlNodes is) [] trivial
    simp only [List.append_nil, joined, inls_node_events] at this
    simp [termNodes, termEvents, nodeEvents, Node.events, this, blank_events]
  | [] => rfl
  | .brk :: _ | .code .. :: _ | .quote _ :: _ | .div .. :: _ | .list .. :: _ | .foot .. :: _ | .table .. :: _ | .attr .. :: _ => rfl

mutual
theorem tree_events (b : Blk) (as : Attr.Attributes) (after : Bool) : nodeEvents (b.tree as after) = b.events as after := by
  match b with
  | .para is =>
    have := join_events (inlNodes is) [] trivial
    simp only [List.append_nil, joined, inls_node_events] at this
    simp [Blk.tree, nodeEvents, Node.events, Blk.events, this, blank_events]
  | .brk => simp [Blk.tree, nodeEvents, Node.events, Blk.events, blank_events]
  | .code n lang ls => simp [Blk.tree, nodeEvents, Node.events, Blk.events, code_events, blank_events]
  | .quote bs => simp [Blk.tree, nodeEvents, Node.events, Blk.events, trees_events bs, blank_events]
  | .div n cls bs => simp [Blk.tree, nodeEvents, Node.events, Blk.events, trees_events bs, blank_events]
  | .list lbs tight items => simp [Blk.tree, nodeEvents, Node.events, Blk.events, items_events lbs tight items after]
  | .foot label bs => simp [Blk.tree, nodeEvents, Node.events, Blk.events, trees_events bs]
  | .table cap ls => simp [Blk.tree, nodeEvents, Node.events, Blk.events, caps_events, rows_events, blank_events]
  | .attr w is b => simpa [Blk.tree, Blk.events] using tree_events b _ after
theorem trees_events (bs : List Blk) (after : Bool) : nodeEvents (blkTrees bs after) = blkEvents bs after := by
  match bs with
  | [] => rfl
  | b :: bs => simp only [blkTrees, nodeEvents_append, tree_events b, trees_events bs, blkEvents]
theorem rest_events (bs : List Blk) (after : Bool) : nodeEvents (restTrees bs after) = restEvents bs after := by
  match bs with
  | [] => rfl
  | b :: bs => simpa only [restTrees, restEvents] using trees_events bs after
theorem items_events (lbs : List Label) (tight : Bool) (items : List (List Blk)) (after : Bool) :
    nodeEvents (itemTrees lbs tight items after) = itemEvents lbs tight items after := by
  match lbs, items with
  | lb :: lbs, it :: its =>
    cases hd : lb.isDesc <;>
      simp [itemTrees, nodeEvents, nodeEvents_append, Node.events, itemEvents, hd, term_events, rest_events it, trees_events it, items_events lbs tight its after]
  | [], _ => simp [itemTrees, itemEvents, nodeEvents]
  | _ :: _, [] => simp [itemTrees, itemEvents, nodeEvents]
end

theorem name_inert : ∀ c : UInt8, Attr.isName c = true → (c != c! '<' && c != c! '>' && c != c! '&' && c != c! '"') = true := fun c =>
  of_decide_eq_true (all_bytes (fun c => decide (Attr.isName c = true → (c != c! '<' && c != c! '>' && c != c! '&' && c != c! '"') = true)) (by decide +kernel) c)

theorem consStr_covered (a : Bytes) (ns : List Node) (h : nodesCovered ns = true) : nodesCovered (consStr a ns) = true := by
  unfold consStr
  split
  · exact h
  · split
    · simp only [nodesCovered, Node.covered, Event.simple, Bool.true_and] at h ⊢; exact h
    · simp only [nodesCovered, Node.covered, Event.simple, Bool.true_and]; exact h

theorem symbol_inert {s : Bytes} (h : SymbolName s) : Html.inert s = true := by
  have : ∀ c : UInt8, (isAlnum c = true ∨ c = c! '-' ∨ c = c! '+' ∨ c = c! '_') → (c != c! '<' && c != c! '>' && c != c! '&' && c != c! '"') = true := fun c =>
    of_decide_eq_true (all_bytes (fun c => decide ((isAlnum c = true ∨ c = c! '-' ∨ c = c! '+' ∨ c = c! '_') → (c != c! '<' && c != c! '>' && c != c! '&' && c != c! '"') = true)) (by decide +kernel) c)
  simp only [Html.inert, List.all_eq_true]
  intro c hc
  exact this c (h c hc)

theorem consStr_imageOk (a : Bytes) (ns : List Node) (h : nodesImageOk ns = true) : nodesImageOk (consStr a ns) = true := by
  unfold consStr
  split
  · exact h
  · split
    · simp only [nodesImageOk, Node.imageOk, Event.simple, Bool.true_and] at h ⊢; exact h
    · simp only [nodesImageOk, Node.imageOk, Event.simple, Bool.true_and]; exact h

theorem link_imageOk (image : Bool) (url : Bytes) (kids : List Node) (h : nodesImageOk kids = true) : (Node.elem (linkTo image url) [] kids).imageOk = true := by
  cases image <;> simp [linkTo, Node.imageOk, isBlock, h]

mutual
theorem inl_imageOk (x : Inl) (B : List Mark) (hx : x.Ok B) (ns : List Node) (h : nodesImageOk (joinNodes ns) = true) : nodesImageOk (joinNodes (x.nodes ++ ns)) = true := by
  match x with
  | .text s => simpa [Inl.nodes, joinNodes] using consStr_imageOk s _ h
  | .esc c => simpa [Inl.nodes, joinNodes, joinNode, nodesImageOk, Node.imageOk, Event.simple] using consStr_imageOk [c] _ h
  | .soft => simpa [Inl.nodes, joinNodes, joinNode, nodesImageOk, Node.imageOk, Event.simple] using h
  | .hard => simpa [Inl.nodes, joinNodes, joinNode, nodesImageOk, Node.imageOk, Event.simple] using h
  | .nbsp => simpa [Inl.nodes, joinNodes, joinNode, nodesImageOk, Node.imageOk, Event.simple] using h
  | .dots => simpa [Inl.nodes, joinNodes, joinNode, nodesImageOk, Node.imageOk, Event.simple] using h
  | .right q => cases q <;> simpa [Inl.nodes, joinNodes, joinNode, nodesImageOk, Node.imageOk, Event.simple] using h
  | .apos => simpa [Inl.nodes, joinNodes, joinNode, nodesImageOk, Node.imageOk, Event.simple] using h
  | .note s => simpa [Inl.nodes, joinNodes, joinNode, nodesImageOk, Node.imageOk, Event.simple] using h
  | .dash em => cases em <;> simpa [Inl.nodes, joinNodes, joinNode, nodesImageOk, Node.imageOk, Event.simple] using h
  | .symbol s =>
    have := symbol_inert hx.2
    simp [Inl.nodes, joinNodes, joinNode, nodesImageOk, Node.imageOk, Event.simple, this, h]
  | .auto u =>
    simp only [Inl.nodes, joinNodes, joinNode, nodesImageOk, Node.imageOk, List.cons_append, List.nil_append, h, Bool.and_true]
    simpa [autoTo, isBlock] using consStr_imageOk u [] rfl
  | .code v n s =>
    simp only [Inl.nodes, joinNodes, joinNode, nodesImageOk, Node.imageOk, List.cons_append, List.nil_append, h, Bool.and_true]
    cases v <;> simpa [isBlock, Verb.container] using consStr_imageOk s [] rfl
  | .elem m true body =>
    simp only [Inl.Ok] at hx
    have h0 := inls_imageOk body _ hx.2.2.2.2 [] rfl
    simp only [List.append_nil] at h0
    have h1 : ∀ e, nodesImageOk (joinNodes (.leaf e :: ns)) = true → nodesImageOk (joinNodes (inlNodes body ++ (.leaf e :: ns))) = true := fun e => inls_imageOk body _ hx.2.2.2.2 _
    have h2 := h1 .rightSingleQuote (by simp [joinNodes, joinNode, nodesImageOk, Node.imageOk, Event.simple, h])
    have h3 := h1 .rightDoubleQuote (by simp [joinNodes, joinNode, nodesImageOk, Node.imageOk, Event.simple, h])
    cases m <;> simp [Inl.nodes, Mark.wrap, joinNodes, joinNode, nodesImageOk, Node.imageOk, Event.simple, isBlock, h, h0, h2, h3]
  | .elem m false body =>
    simp only [Inl.Ok] at hx
    have h0 := inls_imageOk body _ hx.2.2.2.2.2 [] rfl
    simp only [List.append_nil] at h0
    have h1 : ∀ e, nodesImageOk (joinNodes (.leaf e :: ns)) = true → nodesImageOk (joinNodes (inlNodes body ++ (.leaf e :: ns))) = true := fun e => inls_imageOk body _ hx.2.2.2.2.2 _
    have h2 := h1 .rightSingleQuote (by simp [joinNodes, joinNode, nodesImageOk, Node.imageOk, Event.simple, h])
    have h3 := h1 .rightDoubleQuote (by simp [joinNodes, joinNode, nodesImageOk, Node.imageOk, Event.simple, h])
    cases m <;> simp [Inl.nodes, Mark.wrap, joinNodes, joinNode, nodesImageOk, Node.imageOk, Event.simple, isBlock, h, h0, h2, h3]
  | .link image body url =>
    simp only [Inl.Ok] at hx
    have := inls_imageOk body B hx.2.2.2.2 [] rfl
    simp only [List.append_nil] at this
    simp only [Inl.nodes, joinNodes, joinNode, nodesImageOk, List.cons_append, List.nil_append, h, Bool.and_true]
    exact link_imageOk image url _ this
theorem inls_imageOk (is : List Inl) (B : List Mark) (hx : InlsOk B is) (ns : List Node) (h : nodesImageOk (joinNodes ns) = true) : nodesImageOk (joinNodes (inlNodes is ++ ns)) = true := by
  match is with
  | [] => exact h
  | x :: is =>
    simp only [InlsOk] at hx
    simp only [inlNodes, List.append_assoc]
    exact inl_imageOk x B hx.1 _ (inls_imageOk is B hx.2 ns h)
end

mutual
theorem inl_covered (x : Inl) (B : List Mark) (hx : x.Ok B) (ns : List Node) (h : nodesCovered (joinNodes ns) = true) : nodesCovered (joinNodes (x.nodes ++ ns)) = true := by
  match x with
  | .text s => simpa [Inl.nodes, joinNodes] using consStr_covered s _ h
  | .esc c => simpa [Inl.nodes, joinNodes, joinNode, nodesCovered, Node.covered, Event.simple] using consStr_covered [c] _ h
  | .soft => simpa [Inl.nodes, joinNodes, joinNode, nodesCovered, Node.covered, Event.simple] using h
  | .code v n s =>
    have hs : (consStr s []).all Node.isStr = true := by
      unfold consStr
      by_cases hs : s = []
      · subst hs; rfl
      · simp [hs, Node.isStr]
    simp only [Inl.nodes, joinNodes, joinNode, nodesCovered, Node.covered, List.cons_append, List.nil_append, h, Bool.and_true]
    cases v with
    | plain => simpa [classOk, Verb.container] using consStr_covered s [] rfl
    | raw f => simpa [classOk, Verb.container] using hs
    | math display => exact (by simp [classOk, Verb.container, Attr.uniquePairs, Attr.pairsFrom, consStr_covered s [] rfl])
  | .hard => simpa [Inl.nodes, joinNodes, joinNode, nodesCovered, Node.covered, Event.simple] using h
  | .nbsp => simpa [Inl.nodes, joinNodes, joinNode, nodesCovered, Node.covered, Event.simple] using h
  | .dots => simpa [Inl.nodes, joinNodes, joinNode, nodesCovered, Node.covered, Event.simple] using h
  | .right q => cases q <;> simpa [Inl.nodes, joinNodes, joinNode, nodesCovered, Node.covered, Event.simple] using h
  | .apos => simpa [Inl.nodes, joinNodes, joinNode, nodesCovered, Node.covered, Event.simple] using h
  | .note s => simpa [Inl.nodes, joinNodes, joinNode, nodesCovered, Node.covered, Event.simple] using h
  | .dash em => cases em <;> simpa [Inl.nodes, joinNodes, joinNode, nodesCovered, Node.covered, Event.simple] using h
  | .symbol s =>
    have := symbol_inert hx.2
    simp [Inl.nodes, joinNodes, joinNode, nodesCovered, Node.covered, Event.simple, this, h]
  | .auto u =>
    simp only [Inl.nodes, joinNodes, joinNode, nodesCovered, Node.covered, List.cons_append, List.nil_append, h, Bool.and_true]
    simpa [autoTo, classOk] using consStr_covered u [] rfl
  | .link image body url =>
    simp only [Inl.Ok] at hx
    simp only [Inl.nodes, joinNodes, joinNode, nodesCovered, List.cons_append, List.nil_append, h, Bool.and_true]
    cases image with
    | true => simpa [linkTo, Node.covered, classOk] using inls_imageOk body B hx.2.2.2.2 [] rfl
    | false => simpa [linkTo, Node.covered, classOk] using inls_covered body B hx.2.2.2.2 [] rfl
  | .elem m false body =>
    simp only [Inl.Ok] at hx
    have h0 := inls_covered body _ hx.2.2.2.2.2 [] rfl
    simp only [List.append_nil] at h0
    have h1 : ∀ e, nodesCovered (joinNodes (.leaf e :: ns)) = true → nodesCovered (joinNodes (inlNodes body ++ (.leaf e :: ns))) = true := fun e => inls_covered body _ hx.2.2.2.2.2 _
    have h2 := h1 .rightSingleQuote (by simp [joinNodes, joinNode, nodesCovered, Node.covered, Event.simple, h])
    have h3 := h1 .rightDoubleQuote (by simp [joinNodes, joinNode, nodesCovered, Node.covered, Event.simple, h])
    cases m <;> simp [Inl.nodes, Mark.wrap, joinNodes, joinNode, nodesCovered, Node.covered, Event.simple, classOk, h, h0, h2, h3]
  | .elem m true body =>
    simp only [Inl.Ok] at hx
    have h0 := inls_covered body _ hx.2.2.2.2 [] rfl
    simp only [List.append_nil] at h0
    have h1 : ∀ e, nodesCovered (joinNodes (.leaf e :: ns)) = true → nodesCovered (joinNodes (inlNodes body ++ (.leaf e :: ns))) = true := fun e => inls_covered body _ hx.2.2.2.2 _
    have h2 := h1 .rightSingleQuote (by simp [joinNodes, joinNode, nodesCovered, Node.covered, Event.simple, h])
    have h3 := h1 .rightDoubleQuote (by simp [joinNodes, joinNode, nodesCovered, Node.covered, Event.simple, h])
    cases m <;> simp [Inl.nodes, Mark.wrap, joinNodes, joinNode, nodesCovered, Node.covered, Event.simple, classOk, h, h0, h2, h3]
theorem inls_covered (is : List Inl) (B : List Mark) (hx : InlsOk B is) (ns : List Node) (h : nodesCovered (joinNodes ns) = true) : nodesCovered (joinNodes (inlNodes is ++ ns)) = true := by
  match is with
  | [] => exact h
  | x :: is =>
    simp only [InlsOk] at hx
    simp only [inlNodes, List.append_assoc]
    exact inl_covered x B hx.1 _ (inls_covered is B hx.2 ns h)
end

theorem nodesCovered_append (a b : List Node) : nodesCovered (a ++ b) = (nodesCovered a && nodesCovered b) := by
  induction a with
  | nil => simp [nodesCovered]
  | cons n a ih => simp [nodesCovered, ih, Bool.and_assoc]

theorem blank_covered (after : Bool) : nodesCovered (blankNode after) = true := by cases after <;> rfl

theorem cells_covered (als : List Alignment) (head : Bool) (i : Nat) {cells : List (List Inl)} (h : ∀ c ∈ cells, CellOk c) :
    nodesCovered (cellNodes (fun c => joinNodes (inlNodes c)) als head i cells) = true := by
  induction cells generalizing i with
  | nil => rfl
  | cons c cells ih =>
    have h1 : nodesCovered (joinNodes (inlNodes c)) = true := by
      rcases h c (by simp) with rfl | h
      · rfl
      · simpa using inls_covered c [] h.1 [] rfl
    simpa [cellNodes, nodesCovered, Node.covered, classOk, h1] using ih (i + 1) (fun x hx => h x (by simp [hx]))

theorem caps_covered {cap : List Inl} (h : cap = [] ∨ TitleOk cap) : nodesCovered (capNodes (fun c => joinNodes (inlNodes c)) cap) = true := by
  have h1 : nodesCovered (joinNodes (inlNodes cap)) = true := by
    rcases h with rfl | h
    · rfl
    · simpa using inls_covered cap [] h.1 [] rfl
  unfold capNodes
  cases cap.isEmpty <;> simp [nodesCovered, Node.covered, classOk, h1]

theorem rows_covered (als : List Alignment) {ls : List TabLine} (h : ∀ l ∈ ls, l.Ok) : nodesCovered (rowNodes (fun c => joinNodes (inlNodes c)) als ls) = true := by
  induction ls generalizing als with
  | nil => rfl
  | cons l ls ih =>
    have ih' := fun als => ih als (fun x hx => h x (by simp [hx]))
    cases l with
    | sep a => exact ih' a
    | row cells =>
      have hl := h _ (List.mem_cons_self ..)
      simp only [TabLine.Ok] at hl
      cases hh : headAls ls <;> simp [rowNodes, hh, nodesCovered, Node.covered, classOk, cells_covered _ _ _ hl.1, ih']

theorem term_covered {bs : List Blk} (after : Bool) (h : BlksOk bs) : nodesCovered (termNodes (fun c => joinNodes (inlNodes c)) bs after) = true := by
  match bs, h with
  | .para is :: bs, h =>
    have hp := h.1
    simp only [Blk.Ok] at hp
    have : nodesCovered (joinNodes (inlNodes is)) = true := by simpa using inls_covered is [] hp.1 [] rfl
    simp [termNodes, nodesCovered, Node.covered, classOk, this, blank_covered]
  | [], _ => rfl
  | .brk :: _, _ | .code .. :: _, _ | .quote _ :: _, _ | .div .. :: _, _ | .list .. :: _, _ | .foot .. :: _, _ | .table .. :: _, _ | .attr .. :: _, _ => rfl

mutual
/-- No task list is given a class; `as` are the attributes of the block. -/
def Blk.taskOk : Blk → Attr.Attributes → Bool
  | .list lbs _ items, as => (match lbs with
      | .task .. :: _ => !((Attr.uniquePairs as).map (·.1)).contains (b! "class")
      | _ => true) && itemsTaskOk items
  | .quote bs, _ | .div _ _ bs, _ | .foot _ bs, _ => blksTaskOk bs
  | .attr _ is b, as => b.taskOk (as ++ is.map (·.1.elem))
  | _, _ => true
def blksTaskOk : List Blk → Bool
  | [] => true
  | b :: bs => b.taskOk [] && blksTaskOk bs
def itemsTaskOk : List (List Blk) → Bool
  | [] => true
  | it :: its => blksTaskOk it && itemsTaskOk its
end

mutual
theorem tree_covered (b : Blk) (as : Attr.Attributes) (after : Bool) (h : b.Ok) (ht : b.taskOk as = true) : nodesCovered (b.tree as after) = true := by
  match b with
  | .para is => simpa [Blk.tree, nodesCovered, Node.covered, classOk, blank_covered] using inls_covered is [] h.1 [] rfl
  | .brk => simpa [Blk.tree, nodesCovered, Node.covered, Event.simple] using blank_covered after
  | .code n lang ls =>
    have h1 : ∀ ts : List Bytes, nodesCovered (ts.map (fun l => Node.leaf (.str l))) = true := by
      intro ts
      induction ts with
      | nil => rfl
      | cons l ls ih => simpa [nodesCovered, Node.covered, Event.simple] using ih
    have h2 : ∀ ts : List Bytes, (ts.map (fun l => Node.leaf (.str l))).all Node.isStr = true := by
      intro ts
      induction ts with
      | nil => rfl
      | cons l ls ih => simpa [Node.isStr] using ih
    unfold Blk.tree codeOf
    split
    · simp only [nodesCovered, Node.covered, classOk, Bool.true_and, blank_covered, Bool.and_true, h2]
    · simp only [nodesCovered, Node.covered, classOk, Bool.true_and, blank_covered, Bool.and_true, h1]
  | .quote bs => simpa [Blk.tree, nodesCovered, Node.covered, classOk, blank_covered] using trees_covered bs false h.2 ht
  | .div n cls bs =>
    have hc : Html.inert cls = true := by
      simp only [Html.inert, List.all_eq_true]
      intro c hc
      exact name_inert c (h.2.1 c hc)
    simpa [Blk.tree, nodesCovered, Node.covered, classOk, blank_covered, hc] using trees_covered bs false h.2.2.1 ht
  | .list lbs tight items =>
    simp only [Blk.taskOk, Bool.and_eq_true] at ht
    have := items_covered lbs tight items after h.2.2.2.2 ht.2
    match lbs with
    | [] => simpa [Blk.tree, nodesCovered, Node.covered, listOf, classOk] using this
    | .bullet b :: lbs => simpa [Blk.tree, nodesCovered, Node.covered, listOf, Label.list, classOk] using this
    | .task b c :: lbs =>
      have h1 := ht.1
      simp only at h1
      simp only [Blk.tree, nodesCovered, Node.covered, listOf, Label.list, classOk, h1, this, Bool.and_true]
    | .ordered k st n :: lbs => simpa [Blk.tree, nodesCovered, Node.covered, listOf, Label.list, classOk] using this
    | .desc :: lbs => simpa [Blk.tree, nodesCovered, Node.covered, listOf, Label.list, classOk] using this
  | .foot label bs => simpa [Blk.tree, nodesCovered, Node.covered, classOk] using trees_covered bs after h.2.2.1 ht
  | .table cap ls =>
    simp only [Blk.Ok] at h
    simp [Blk.tree, nodesCovered, Node.covered, classOk, blank_covered, nodesCovered_append, caps_covered h.2, rows_covered _ h.1.2]
  | .attr w is b =>
    simp only [Blk.Ok] at h
    exact tree_covered b _ after h.2.2.2 ht
theorem trees_covered (bs : List Blk) (after : Bool) (h : BlksOk bs) (ht : blksTaskOk bs = true) : nodesCovered (blkTrees bs after) = true := by
  match bs with
  | [] => rfl
  | b :: bs =>
    simp only [blksTaskOk, Bool.and_eq_true] at ht
    simp only [blkTrees, nodesCovered_append, tree_covered b _ _ h.1 ht.1, trees_covered bs _ h.2.2 ht.2, Bool.and_true]
theorem rest_covered (bs : List Blk) (after : Bool) (h : BlksOk bs) (ht : blksTaskOk bs = true) : nodesCovered (restTrees bs after) = true := by
  match bs with
  | [] => rfl
  | b :: bs =>
    simp only [blksTaskOk, Bool.and_eq_true] at ht
    simpa only [restTrees] using trees_covered bs after h.2.2 ht.2
theorem items_covered (lbs : List Label) (tight : Bool) (items : List (List Blk)) (after : Bool) (h : ItemsOk items) (ht : itemsTaskOk items = true) :
    nodesCovered (itemTrees lbs tight items after) = true := by
  match lbs, items with
  | lb :: lbs, it :: its =>
    simp only [itemsTaskOk, Bool.and_eq_true] at ht
    have h1 := trees_covered it (if its.isEmpty then after else !tight) h.2.1 ht.1
    have h2 := items_covered lbs tight its after h.2.2 ht.2
    have h3 := rest_covered it (if its.isEmpty then after else !tight) h.2.1 ht.1
    have h4 := term_covered (if its.isEmpty then after else !tight) h.2.1
    cases lb <;> simp only [itemTrees, Label.isDesc, Bool.false_eq_true, if_false, if_true, nodesCovered_append, nodesCovered, Node.covered, Label.item, classOk, h1, h2, h3, h4, Bool.and_true]
  | [], _ => simp [itemTrees, nodesCovered]
  | _ :: _, [] => simp [itemTrees, nodesCovered]
end

/-! ## References to footnotes -/

theorem nodeRefs_append (a b : List Node) : nodeRefs (a ++ b) = nodeRefs a ++ nodeRefs b := by
  induction a with
  | nil => rfl
  | cons n a ih => simp [nodeRefs, ih]

theorem consStr_refs (a : Bytes) (ns : List Node) : nodeRefs (consStr a ns) = nodeRefs ns := by
  unfold consStr
  split
  · rfl
  · split <;> simp [nodeRefs, Node.refs]

mutual
theorem join_refs (n : Node) : (joinNode n).refs = n.refs := by
  match n with
  | .leaf e => rfl
  | .elem c a kids =>
    have := joins_refs kids
    cases c <;> simp [joinNode, Node.refs, this]
theorem joins_refs (ns : List Node) : nodeRefs (joinNodes ns) = nodeRefs ns := by
  match ns with
  | [] => rfl
  | n :: ns =>
    by_cases h : ∃ s, n = .leaf (.str s)
    · obtain ⟨s, rfl⟩ := h
      simp only [joinNodes, consStr_refs, joins_refs ns, nodeRefs, Node.refs, List.nil_append]
    · rw [joinNodes]
      · simp only [nodeRefs, join_refs n, joins_refs ns]
      · intro a e; exact h ⟨a, e⟩
end

mutual
theorem inl_noNotes (x : Inl) : nodesNoNotes x.nodes = true := by
  match x with
  | .text s => rfl
  | .esc c => rfl
  | .soft => rfl
  | .hard => rfl
  | .nbsp => rfl
  | .dots => rfl
  | .dash em => rfl
  | .right q => rfl
  | .apos => rfl
  | .symbol s => rfl
  | .note s => rfl
  | .auto u => rfl
  | .code v n s => cases v <;> rfl
  | .elem m _ body => cases m <;> simp [Inl.nodes, Mark.wrap, nodesNoNotes, Node.noNotes, noNotes_append, inls_noNotes body]
  | .link image body url => cases image <;> simp [Inl.nodes, nodesNoNotes, Node.noNotes, linkTo, inls_noNotes body]
theorem inls_noNotes (is : List Inl) : nodesNoNotes (inlNodes is) = true := by
  match is with
  | [] => rfl
  | x :: is => simp [inlNodes, noNotes_append, inl_noNotes x, inls_noNotes is]
end

theorem consStr_noNotes (a : Bytes) (ns : List Node) : nodesNoNotes (consStr a ns) = nodesNoNotes ns := by
  unfold consStr
  split
  · rfl
  · split <;> simp [nodesNoNotes, Node.noNotes]

mutual
theorem join_noNotes (n : Node) (h : n.noNotes = true) : (joinNode n).noNotes = true := by
  match n with
  | .leaf e => rfl
  | .elem c a kids =>
    have h1 := joins_noNotes kids
    cases c <;> simp [joinNode, Node.noNotes] at h ⊢ <;> exact h1 h
theorem joins_noNotes (ns : List Node) (h : nodesNoNotes ns = true) : nodesNoNotes (joinNodes ns) = true := by
  match ns with
  | [] => rfl
  | n :: ns =>
    simp only [nodesNoNotes, Bool.and_eq_true] at h
    by_cases hs : ∃ s, n = .leaf (.str s)
    · obtain ⟨s, rfl⟩ := hs
      simp only [joinNodes, consStr_noNotes, joins_noNotes ns h.2]
    · rw [joinNodes]
      · simp only [nodesNoNotes, join_noNotes n h.1, joins_noNotes ns h.2, Bool.and_true]
      · intro a e; exact hs ⟨a, e⟩
end

/-! ## Trees with the same HTML -/

/-- Inline content with the same HTML and the same references. -/
structure SameText (k k' : List Node) : Prop where
  html : ∀ i Ls tight d, nodeHtml i Ls false tight d k = nodeHtml i Ls false tight d k'
  refs : nodeRefs k = nodeRefs k'
  left : nodesNoNotes k = true
  right : nodesNoNotes k' = true

theorem joins_same (is : List Inl) : SameText (joinNodes (inlNodes is)) (inlNodes is) where
  html i Ls tight d := by
    have := joins_html is i Ls tight d []
    simpa only [List.append_nil, joinNodes, nodeHtml] using this
  refs := joins_refs _
  left := joins_noNotes _ (inls_noNotes is)
  right := inls_noNotes is

/-- Containers of blocks. -/
def holds : Container → Bool
  | .blockquote | .div _ | .list .. | .listItem | .taskListItem _ | .section _ | .footnote _ | .table | .tableRow _ | .descriptionList | .descriptionDetails => true
  | _ => false

/-- Containers of text. -/
def textual : Container → Bool
  | .paragraph | .heading .. | .tableCell .. | .caption | .descriptionTerm => true
  | _ => false

/-- Trees that differ only in how texts are divided. -/
inductive Sim : List Node → List Node → Prop
  | nil : Sim [] []
  | same {n a b} (h : n.noNotes = true) (t : Sim a b) : Sim (n :: a) (n :: b)
  | elem {c at' k k' a b} (hc : holds c = true) (hk : Sim k k') (t : Sim a b) : Sim (.elem c at' k :: a) (.elem c at' k' :: b)
  | text {c at' k k' a b} (hc : textual c = true) (hk : SameText k k') (t : Sim a b) : Sim (.elem c at' k :: a) (.elem c at' k' :: b)

theorem Sim.html {a b : List Node} (h : Sim a b) (i : Option Indentation) (Ls : List Bytes) (f tight : Bool) (d : Nat) : nodeHtml i Ls f tight d a = nodeHtml i Ls f tight d b := by
  induction h generalizing f tight d with
  | nil => rfl
  | same h t ih => simp only [nodeHtml, ih]
  | @elem c at' k k' a b hc hk t ih1 ih2 =>
    have hh : (Node.elem c at' k).hidden = (Node.elem c at' k').hidden := by cases c <;> rfl
    have e : (Node.elem c at' k).html i Ls f tight d = (Node.elem c at' k').html i Ls f tight d := by
      cases c <;> first | (simp [holds] at hc; done) | simp only [Node.html, ih1]
    simp only [nodeHtml, e, hh, ih2]
  | @text c at' k k' a b hc hk t ih =>
    have hh : (Node.elem c at' k).hidden = (Node.elem c at' k').hidden := by cases c <;> rfl
    have e : (Node.elem c at' k).html i Ls f tight d = (Node.elem c at' k').html i Ls f tight d := by
      cases c <;> first | (simp [textual] at hc; done) | simp only [Node.html, isBlockContainer, Bool.false_eq_true, if_false, hk.html]
    simp only [nodeHtml, e, hh, ih]

theorem Sim.refs {a b : List Node} (h : Sim a b) : nodeRefs a = nodeRefs b := by
  induction h with
  | nil => rfl
  | same h t ih => simp only [nodeRefs, ih]
  | @elem c at' k k' a b hc hk t ih1 ih2 => cases c <;> first | (simp [holds] at hc; done) | simp only [nodeRefs, Node.refs, ih1, ih2]
  | @text c at' k k' a b hc hk t ih => cases c <;> first | (simp [textual] at hc; done) | simp only [nodeRefs, Node.refs, hk.refs, ih]

theorem Sim.append {a b c d : List Node} (h : Sim a b) (h2 : Sim c d) : Sim (a ++ c) (b ++ d) := by
  induction h with
  | nil => exact h2
  | same h t ih => exact .same h ih
  | elem hc hk t _ ih => exact .elem hc hk ih
  | text hc hk t ih => exact .text hc hk ih

theorem Sim.refl {a : List Node} (h : nodesNoNotes a = true) : Sim a a := by
  induction a with
  | nil => exact .nil
  | cons n a ih =>
    simp only [nodesNoNotes, Bool.and_eq_true] at h
    exact .same h.1 (ih h.2)

theorem Sim.without {a b : List Node} (h : Sim a b) : Sim (withoutNotes a) (withoutNotes b) := by
  induction h with
  | nil => exact .nil
  | same h t ih => simp only [withoutNotes, strip_id _ h]; exact .same h ih
  | @elem c at' k k' a b hc hk t ih1 ih2 =>
    by_cases hf : ∃ l, c = .footnote l
    · obtain ⟨l, rfl⟩ := hf
      simpa only [withoutNotes, Node.withoutNotes, List.nil_append] using ih2
    · have hf' : ∀ l, c ≠ .footnote l := fun l e => hf ⟨l, e⟩
      simp only [withoutNotes, elem_withoutNotes hf']
      exact .elem hc ih1 ih2
  | @text c at' k k' a b hc hk t ih =>
    have hf' : ∀ l, c ≠ .footnote l := by rintro l rfl; cases hc
    simp only [withoutNotes, elem_withoutNotes hf', strips_id _ hk.left, strips_id _ hk.right]
    exact .text hc hk ih

/-- Notes with the same labels and contents. -/
inductive SimNotes : List (Bytes × List Node) → List (Bytes × List Node) → Prop
  | nil : SimNotes [] []
  | cons {l a b N M} (h : Sim a b) (t : SimNotes N M) : SimNotes ((l, a) :: N) ((l, b) :: M)

theorem SimNotes.append {a b c d : List (Bytes × List Node)} (h : SimNotes a b) (h2 : SimNotes c d) : SimNotes (a ++ c) (b ++ d) := by
  induction h with
  | nil => exact h2
  | cons h t ih => exact .cons h ih

theorem Sim.notes {a b : List Node} (h : Sim a b) : SimNotes (nodeNotes a) (nodeNotes b) := by
  induction h with
  | nil => exact .nil
  | same h t ih => simpa only [nodeNotes, noNotes_nil1 _ h, List.nil_append] using ih
  | @elem c at' k k' a b hc hk t ih1 ih2 =>
    by_cases hf : ∃ l, c = .footnote l
    · obtain ⟨l, rfl⟩ := hf
      simp only [nodeNotes, Node.notes]
      exact (ih1.append (.cons hk.without .nil)).append ih2
    · have hf' : ∀ l, c ≠ .footnote l := fun l e => hf ⟨l, e⟩
      simp only [nodeNotes, elem_notes hf']
      exact ih1.append ih2
  | @text c at' k k' a b hc hk t ih =>
    have hf' : ∀ l, c ≠ .footnote l := by rintro l rfl; cases hc
    simpa only [nodeNotes, elem_notes hf', noNotes_nil _ hk.left, noNotes_nil _ hk.right, List.nil_append] using ih

theorem SimNotes.content {N M : List (Bytes × List Node)} (h : SimNotes N M) (l : Bytes) : Sim (noteContent N l) (noteContent M l) := by
  have key : ∀ {N M : List (Bytes × List Node)}, SimNotes N M → SimNotes (N.filter (fun p => p.1 == l)) (M.filter (fun p => p.1 == l)) := by
    intro N M h
    induction h with
    | nil => exact .nil
    | @cons l' a b N M h t ih =>
      by_cases hl : l' == l
      · simp only [List.filter_cons, hl, if_true]; exact .cons h ih
      · simp only [List.filter_cons, hl, Bool.false_eq_true, if_false]; exact ih
  have key2 : ∀ {N M : List (Bytes × List Node)}, SimNotes N M → Sim ((N.getLast?.map (·.2)).getD []) ((M.getLast?.map (·.2)).getD []) := by
    intro N M h
    induction h with
    | nil => exact .nil
    | @cons l' a b N M h t ih =>
      cases t with
      | nil => exact h
      | cons h' t' => simpa only [List.getLast?_cons_cons] using ih
  exact key2 (key h)

theorem Sim.silent {a b : List Node} (h : Sim a b) : a.all Node.silent = b.all Node.silent := by
  induction h with
  | nil => rfl
  | same h t ih => simp only [List.all_cons, ih]
  | elem hc hk t _ ih => simp [Node.silent]
  | text hc hk t ih => simp [Node.silent]

theorem Sim.link {a b : List Node} (h : Sim a b) (n : Nat) : Sim (withLink (backlink n) a) (withLink (backlink n) b) := by
  have hl : Sim [Node.elem .paragraph [] [backlink n]] [Node.elem .paragraph [] [backlink n]] := Sim.refl (by rfl)
  have other : ∀ {x y : Node} {a b : List Node}, (¬ ∃ at' k, x = .elem .paragraph at' k) → (¬ ∃ at' k, y = .elem .paragraph at' k) → (∀ {c d}, Sim c d → Sim (x :: c) (y :: d)) → Sim a b →
      Sim (withLink (backlink n) a) (withLink (backlink n) b) → Sim (withLink (backlink n) (x :: a)) (withLink (backlink n) (y :: b)) := by
    intro x y a b hx hy hc t ih
    by_cases hs : a.all Node.silent = true
    · rw [withLink_other _ _ _ hs hx, withLink_other _ _ _ (t.silent ▸ hs) hy]
      exact hc (t.append hl)
    · have hs' : ¬ b.all Node.silent = true := t.silent ▸ hs
      simp only [withLink, hs, hs', Bool.false_eq_true, if_false]
      exact hc ih
  induction h with
  | nil => exact hl
  | @same x a b h t ih =>
    by_cases hx : ∃ at' k, x = .elem .paragraph at' k
    · obtain ⟨at', k, rfl⟩ := hx
      by_cases hs : a.all Node.silent = true
      · have hs' : b.all Node.silent = true := t.silent ▸ hs
        simp only [withLink, hs, hs', if_true]
        refine .same ?_ t
        simp only [Node.noNotes] at h ⊢
        rw [noNotes_append, h]; rfl
      · have hs' : ¬ b.all Node.silent = true := t.silent ▸ hs
        simp only [withLink, hs, hs', Bool.false_eq_true, if_false]
        exact .same h ih
    · exact other hx hx (fun t => .same h t) t ih
  | @elem c at' k k' a b hc hk t _ ih =>
    exact other (by rintro ⟨at'', k'', e⟩; cases e; cases hc) (by rintro ⟨at'', k'', e⟩; cases e; cases hc) (fun t => .elem hc hk t) t ih
  | @text c at' k k' a b hc hk t ih =>
    by_cases hp : c = .paragraph
    · subst hp
      by_cases hs : a.all Node.silent = true
      · have hs' : b.all Node.silent = true := t.silent ▸ hs
        simp only [withLink, hs, hs', if_true]
        refine .text rfl ⟨?_, ?_, ?_, ?_⟩ t
        · intro i Ls tight d
          rw [nodeHtml_append, nodeHtml_append, hk.html]
        · rw [nodeRefs_append, nodeRefs_append, hk.refs]
        · rw [noNotes_append, hk.left]; rfl
        · rw [noNotes_append, hk.right]; rfl
      · have hs' : ¬ b.all Node.silent = true := t.silent ▸ hs
        simp only [withLink, hs, hs', Bool.false_eq_true, if_false]
        exact .text hc hk ih
    · exact other (by rintro ⟨at'', k'', e⟩; cases e; exact hp rfl) (by rintro ⟨at'', k'', e⟩; cases e; exact hp rfl) (fun t => .text hc hk t) t ih

theorem SimNotes.html {N M : List (Bytes × List Node)} (h : SimNotes N M) (i : Option Indentation) (Ls : List Bytes) (d n : Nat) (ls : List Bytes) :
    notesHtml i Ls d N n ls = notesHtml i Ls d M n ls := by
  induction ls generalizing n with
  | nil => rfl
  | cons l ls ih => simp only [notesHtml, noteHtml, ((h.content l).link (n + 1)).html, ih]

/-- The same HTML. -/
theorem Sim.document {a b : List Node} (h : Sim a b) (i : Option Indentation) (Ls : List Bytes) : documentHtml i Ls a = documentHtml i Ls b := by
  simp only [documentHtml, endnotesHtml, h.html, h.notes.html]

/-- The same notes. -/
theorem Sim.treeNotes {a b : List Node} (h : Sim a b) {Ls : List Bytes} (hn : TreeNotes a Ls) : TreeNotes b Ls := by
  unfold TreeNotes at *
  rw [← h.refs]
  have : (fun l => nodeRefs (noteContent (nodeNotes b) l)) = fun l => nodeRefs (noteContent (nodeNotes a) l) := by
    funext l
    exact (h.notes.content l).refs.symm
  rw [this]
  exact hn

theorem sim_blank (after : Bool) : Sim (blankNode after) (blankNode after) := by
  refine Sim.refl ?_
  cases after <;> rfl

theorem holds_listOf (lbs : List Label) (t : Bool) : holds (listOf lbs t) = true := by
  cases lbs with
  | nil => rfl
  | cons lb lbs => cases lb <;> rfl

theorem cells_sim (als : List Alignment) (head : Bool) (i : Nat) (cells : List (List Inl)) :
    Sim (cellNodes (fun c => joinNodes (inlNodes c)) als head i cells) (cellNodes inlNodes als head i cells) := by
  induction cells generalizing i with
  | nil => exact .nil
  | cons c cells ih => exact .text rfl (joins_same c) (ih _)

theorem caps_sim (cap : List Inl) : Sim (capNodes (fun c => joinNodes (inlNodes c)) cap) (capNodes inlNodes cap) := by
  unfold capNodes
  cases cap.isEmpty with
  | true => exact .nil
  | false => exact .text rfl (joins_same cap) .nil

theorem rows_sim (als : List Alignment) (ls : List TabLine) : Sim (rowNodes (fun c => joinNodes (inlNodes c)) als ls) (rowNodes inlNodes als ls) := by
  induction ls generalizing als with
  | nil => exact .nil
  | cons l ls ih =>
    cases l with
    | sep a => exact ih a
    | row cells =>
      simp only [rowNodes]
      cases headAls ls with
      | none => exact .elem rfl (cells_sim _ _ _ _) (ih _)
      | some a => exact .elem rfl (cells_sim _ _ _ _) (ih _)

theorem term_sim (bs : List Blk) (after : Bool) : Sim (termNodes (fun c => joinNodes (inlNodes c)) bs after) (termNodes inlNodes bs after) := by
  unfold termNodes
  split
  · exact .text rfl (joins_same _) (sim_blank _)
  · exact .nil

mutual
/-- Joining texts in a block. -/
theorem tree_sim (b : Blk) (as : Attr.Attributes) (after : Bool) : Sim (b.tree as after) (b.node as after) := by
  match b with
  | .para is => exact .text rfl (joins_same is) (sim_blank after)
  | .brk => exact .same rfl (sim_blank after)
  | .code n lang ls =>
    have h1 : ∀ ts : List Bytes, nodesNoNotes (ts.map (fun l => Node.leaf (.str l))) = true := by
      intro ts
      induction ts with
      | nil => rfl
      | cons l ls ih => simpa [nodesNoNotes, Node.noNotes] using ih
    refine .same ?_ (sim_blank after)
    unfold codeOf
    split <;> exact h1 _
  | .quote bs => exact .elem rfl (trees_sim bs false) (sim_blank after)
  | .div n cls bs => exact .elem rfl (trees_sim bs false) (sim_blank after)
  | .list lbs t items => exact .elem (holds_listOf lbs _) (items_sim lbs t items after) .nil
  | .foot label bs => exact .elem rfl (trees_sim bs after) .nil
  | .table cap ls => exact .elem rfl ((caps_sim cap).append (rows_sim _ ls)) (sim_blank after)
  | .attr w is b => exact tree_sim b _ after
theorem trees_sim (bs : List Blk) (after : Bool) : Sim (blkTrees bs after) (blkNodes bs after) := by
  match bs with
  | [] => exact .nil
  | b :: bs => exact (tree_sim b [] _).append (trees_sim bs after)
theorem rest_sim (bs : List Blk) (after : Bool) : Sim (restTrees bs after) (restNodes bs after) := by
  match bs with
  | [] => exact .nil
  | b :: bs => simpa only [restTrees, restNodes] using trees_sim bs after
theorem items_sim (lbs : List Label) (t : Bool) (items : List (List Blk)) (after : Bool) : Sim (itemTrees lbs t items after) (itemNodes lbs t items after) := by
  match lbs, items with
  | lb :: lbs, it :: its =>
    simp only [itemTrees, itemNodes]
    refine Sim.append ?_ (items_sim lbs t its after)
    by_cases hd : lb.isDesc = true
    · simp only [hd, if_true]
      exact (term_sim it _).append (.elem (by cases lb <;> rfl) (rest_sim it _) .nil)
    · simp only [hd, Bool.false_eq_true, if_false]
      exact .elem (by cases lb <;> rfl) (trees_sim it _) .nil
  | [], _ => simp [itemTrees, itemNodes, Sim.nil]
  | _ :: _, [] => simp [itemTrees, itemNodes, Sim.nil]
end

/-- **C52.** From text to HTML: the written text of a document is rendered as the HTML of the document. The notes at the end, and their order, are
determined by the document. No task list is given a class, as the classes would be run together. -/
theorem C52_text_to_html (i : Option Indentation) (d : List Blk) (h : BlksOk d) (ht : blksTaskOk d = true) (hu : Utf8 (write d)) (es : List Event) (he : events (write d) = .ok es) :
    ∃ Ls, TreeNotes (blkNodes d false) Ls ∧ (∀ Ls', TreeNotes (blkNodes d false) Ls' → Ls' = Ls) ∧
      (Renderer.new i).output es = .ok (documentHtml i Ls (blkNodes d false)) := by
  rw [C50_round_trip d h hu es he, docEvents, ← trees_events]
  obtain ⟨Ls, h1, h2⟩ := document_ok i [] (blkTrees d false) (trees_covered d false h ht)
  have hn := (trees_sim d false).treeNotes h1
  exact ⟨Ls, hn, fun Ls' h' => h'.unique hn, by rw [h2, (trees_sim d false).document]⟩

example : TreeNotes (blkNodes sampleDoc false) [b! "n"] := by
  have d : distinct (nodeRefs (blkNodes sampleDoc false)) = [b! "n"] := by decide +kernel
  unfold TreeNotes
  rw [d]
  refine .note (l := b! "n") rfl ?_
  have e : distinct ([b! "n"] ++ nodeRefs (noteContent (nodeNotes (blkNodes sampleDoc false)) (b! "n"))) = [b! "n"] := by decide +kernel
  simp only [e]
  exact .done (by decide)

/-- The HTML of the sample document, as `html::render_to_string` writes it. -/
example : documentHtml (some ⟨[], 0⟩) [b! "n"] (blkNodes sampleDoc false) = b! "<p><a href=\"u/v.html\"><strong>t</strong>…</a>—:smile:&nbsp;<sub>2</sub><br>\n<a href=\"http://a.b\">http://a.b</a> <img alt=\"i\" src=\"p.png\"></p>\n<p>ab, 1. <em>x\n<del><code>a`b</code></del></em>\n*y’</p>\n<blockquote>\n<div class=\"note\">\n<hr>\n<pre><code class=\"language-rust\">fn\n  ```x\n\n</code></pre>\n<div>\n</div>\n</div>\n<p><code> v </code> ‘“q”’<a id=\"fnref1\" href=\"#fn1\" role=\"doc-noteref\"><sup>1</sup></a>’ `</p>\n</blockquote>\n<ul>\n<li>\n<p>a</p>\n<ul class=\"task-list\">\n<li>\n<input disabled=\"\" type=\"checkbox\" checked=\"\"/>\nb\n</li>\n<li>\n<input disabled=\"\" type=\"checkbox\"/>\nc\n</li>\n</ul>\n<hr>\n</li>\n<li>\n<p>d</p>\n</li>\n</ul>\n<hr>\n<ol start=\"4\" type=\"i\">\n<li>\ne\n</li>\n</ol>\n<b>\nx\n<hr>\n<section role=\"doc-endnotes\">\n<hr>\n<ol>\n<li id=\"fn1\">\n<p>f</p>\n<blockquote>\n<p>g</p>\n</blockquote>\n<p><a href=\"#fnref1\" role=\"doc-backlink\">↩︎</a></p>\n</li>\n</ol>\n</section>\n" := by
  decide +kernel

/-- The HTML of the tables. -/
example : documentHtml (some ⟨[], 0⟩) [] (blkNodes sampleTable false) = b! "<table>\n<caption>T\n<strong>u</strong></caption>\n<tr>\n<th style=\"text-align: center;\">a</th>\n<th style=\"text-align: right;\"></th>\n</tr>\n<tr>\n<td style=\"text-align: center;\"><code>a`b|</code></td>\n<td style=\"text-align: right;\"><strong>c</strong>|</td>\n</tr>\n</table>\n<ul>\n<li>\n<p>d</p>\n<table>\n<tr>\n<td>e</td>\n</tr>\n</table>\n</li>\n<li>\n<p>f</p>\n</li>\n</ul>\n" := by
  decide +kernel

/-- The HTML of the description lists. -/
example : documentHtml (some ⟨[], 0⟩) [] (blkNodes sampleDesc false) = b! "<dl>\n<dt>a</dt>\n<dd>\n<p>b</p>\n<blockquote>\n<p>c</p>\n</blockquote>\n</dd>\n<dt>d</dt>\n<dd>\n</dd>\n</dl>\n<hr>\n<ul>\n<li>\n<p>e</p>\n</li>\n<li>\n<p>f</p>\n<dl>\n<dt>g</dt>\n<dd>\n<ul>\n<li>\na\n</li>\n</ul>\n</dd>\n<dt>b</dt>\n<dd>\n</dd>\n</dl>\n</li>\n</ul>\n" := by
  decide +kernel

/-- The HTML of the sample with mathematics. -/
example : documentHtml (some ⟨[], 0⟩) [] (blkNodes sampleMath false) = b! "<p>see <span class=\"math display\">\\[a`b\\]</span> or<span class=\"math inline\">\\(`\\)</span>…$</p>\n<hr>\n<p><strong>y<span class=\"math inline\">\\(a`b\\)</span></strong><code>`</code></p>\n" := by
  decide +kernel

/-- The samples have no task list with a class. -/
example : blksTaskOk sampleDoc = true ∧ blksTaskOk sampleAttr = true := by decide

/-- The HTML of the sample with attributes. -/
example : documentHtml (some ⟨[], 0⟩) [] (blkNodes sampleAttr false) = b! "<p class=\"c d\" id=\"i\" k=\"v\" q=\"x y\">a</p>\n<ul>\n<li>\nb\n</li>\n</ul>\n<ul class=\"e\">\n<li>\n<p>c</p>\n<hr id=\"h\">\n</li>\n<li>\n<p>d</p>\n</li>\n</ul>\n<blockquote>\n<ul id=\"l\">\n<li>\ne\n</li>\n</ul>\n</blockquote>\n" := by
  decide +kernel

/-- A task list with a class. -/
def sampleTask : List Round.Blk := [.attr [] [(.cls (b! "x"), [])] (.list [.task .dash false] true [[.para [.text (b! "a")]]])]

/-- The class of a task list is run together with the class that is given: this is why they are left out. -/
theorem C52_task_class : write sampleTask = b! "{.x}\n- [ ] a\n" ∧ blksTaskOk sampleTask = false ∧
    ∃ es, events (write sampleTask) = .ok es ∧ (Renderer.new (some ⟨[], 0⟩)).output es = .ok (b! "<ul class=\"xtask-list\">\n<li>\n<input disabled=\"\" type=\"checkbox\"/>\na\n</li>\n</ul>\n") := by
  refine ⟨by decide +kernel, by decide, docEvents sampleTask, by decide +kernel, by decide +kernel⟩

end Jotdown.Round
