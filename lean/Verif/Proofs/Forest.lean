import Verif.Proofs.MarkerFull
import Verif.Spec.Doc
/-! # Shape of the block events: helper definitions and lemmas -/
namespace Jotdown.Block
open Jotdown

/-- The span lies within the source and both ends are char boundaries. -/
structure SpanOk (src : Bytes) (sp : Span) : Prop where
  le : sp.start ≤ sp.stop
  len : sp.stop ≤ src.length
  bs : Bd (src.drop sp.start)
  be : Bd (src.drop sp.stop)

/-- The text of a span. -/
def sliceOf (src : Bytes) (sp : Span) : Bytes := (src.drop sp.start).take (sp.stop - sp.start)

theorem SpanOk.slice {src : Bytes} {sp : Span} (h : SpanOk src sp) :
    strSlice src sp.start sp.stop = .ok (sliceOf src sp) := strSlice_ok h.le h.len h.bs h.be

theorem SpanOk.empty {src : Bytes} {n : Nat} (hn : n ≤ src.length) (hb : Bd (src.drop n)) : SpanOk src ⟨n, n⟩ :=
  ⟨Nat.le_refl _, hn, hb, hb⟩

theorem SpanOk.at_start {src : Bytes} {sp : Span} (h : SpanOk src sp) : SpanOk src ⟨sp.start, sp.start⟩ :=
  .empty (Nat.le_trans h.le h.len) h.bs

theorem SpanOk.at_stop {src : Bytes} {sp : Span} (h : SpanOk src sp) : SpanOk src ⟨sp.stop, sp.stop⟩ :=
  .empty h.len h.be

/-- The attributes in the span can be parsed. -/
def AttrOk (src : Bytes) (sp : Span) : Prop :=
  ∃ a, ∀ attrs, Attr.parseAttributes attrs (sliceOf src sp) = .ok (.ok (attrs ++ a))

def AtomOk (src : Bytes) (sp : Span) : Atom → Prop
  | .attributes => AttrOk src sp
  | .blankline => Syntax.Begins src sp.start sp.stop .blank
  | .thematicBreak => Syntax.Begins src sp.start sp.stop .thematicBreak

def TyOk : ListType → Prop
  | .unordered b => b = c! '-' ∨ b = c! '*' ∨ b = c! '+'
  | .task b => b = c! '-' ∨ b = c! '*' ∨ b = c! '+'
  | .ordered n _ => n.value < 10 ^ 19
  | .description => True

/-- Containers other than document, section and tables. -/
def ContOk : Container → Prop
  | .list ty _ => TyOk ty
  | .div c => c.all Attr.isName = true
  | .document => False
  | .section _ => False
  | .table => False
  | .tableRow _ => False
  | _ => True

/-- Where a block stands: directly in the document or a section, directly in a list, or directly in
any other container. -/
inductive Cx where
  | top
  | list
  | inner
deriving DecidableEq

/-- The context of the children of a container. -/
def childCx : Container → Cx
  | .list .. => .list
  | _ => .inner

def Container.isItem : Container → Bool
  | .listItem _ => true
  | _ => false

/-- The context in which a container stands when other blocks would stand in `cx`. -/
def outerCx (cx : Cx) (c : Container) : Cx := if c.isItem then .list else cx

/-- Leaves other than table cells, captions and headings of sections. -/
def LeafOk (cx : Cx) (sp : Span) : Leaf → Prop
  | .heading _ hs pos => cx = .inner ∧ hs = false ∧ pos = sp.start % 4294967296
  | .tableCell _ => False
  | .caption => False
  | .descriptionTerm => cx = .list
  | _ => cx ≠ .list

/-- The position ends a line: it follows a newline or is the end of the source. -/
def NlStop (src : Bytes) (n : Nat) : Prop := n = src.length ∨ (0 < n ∧ src[n - 1]? = some (c! '\n'))

/-- The contents of the leaf are given to the inline parser. -/
def Leaf.isFed : Leaf → Bool
  | .codeBlock _ => false
  | .linkDefinition _ => false
  | _ => true

/-- A heading has at least one `#` and carries its position. A node begins with its marker. -/
def NodeOk (src : Bytes) (sp : Span) : Node → Prop
  | .leaf (.heading level hs pos) => sp.start < sp.stop ∧ pos = sp.start % 4294967296 ∧
      Syntax.StartOk src sp (nodeName (fun _ => []) false (.leaf (.heading level hs pos)))
  | n => Syntax.StartOk src sp (nodeName (fun _ => []) false n)

structure Enters (src : Bytes) (lo : Nat) (e : Event) (n : Node) : Prop where
  kind : e.kind = .enter n
  node : NodeOk src e.span n
  span : SpanOk src e.span
  lo : lo ≤ e.span.start

structure Exits (src : Bytes) (e : Event) (n : Node) : Prop where
  kind : e.kind = .exit n
  span : SpanOk src e.span

/-- Inline events of a leaf, in order. If they are for the inline parser (`fed`) all but the last
end a line. -/
inductive InlChain (src : Bytes) (fed : Bool) : Nat → List Event → Nat → Prop
  | nil {lo hi} : lo ≤ hi → InlChain src fed lo [] hi
  | cons {lo hi e es} : e.kind = .inline → SpanOk src e.span → lo ≤ e.span.start →
      (fed = true → es = [] ∨ NlStop src e.span.stop) →
      InlChain src fed e.span.stop es hi → InlChain src fed lo (e :: es) hi

/-- Cells of a row. -/
inductive Cells (src : Bytes) : Nat → List Event → Nat → Prop
  | nil {lo hi} : lo ≤ hi → Cells src lo [] hi
  | cons {lo hi e i x a G} : Enters src lo e (.leaf (.tableCell a)) → i.kind = .inline → SpanOk src i.span →
      e.span.stop ≤ i.span.start → i.span.stop ≤ x.span.start → Exits src x (.leaf (.tableCell a)) →
      Cells src x.span.stop G hi → Cells src lo (e :: i :: x :: G) hi

/-- Rows of a table. -/
inductive Rows (src : Bytes) : Nat → List Event → Nat → Prop
  | nil {lo hi} : lo ≤ hi → Rows src lo [] hi
  | cons {lo hi e C x h G} : Enters src lo e (.container (.tableRow h)) → Cells src e.span.stop C x.span.start →
      Exits src x (.container (.tableRow h)) → Rows src x.span.stop G hi → Rows src lo (e :: C ++ x :: G) hi

/-- The events of a leaf. -/
inductive LeafSeg (src : Bytes) (l : Leaf) : Nat → List Event → Nat → Prop
  | mk {lo hi e inl x} : Enters src lo e (.leaf l) → InlChain src l.isFed e.span.stop inl x.span.start →
      Exits src x (.leaf l) → x.span.stop ≤ hi → LeafSeg src l lo (e :: inl ++ [x]) hi

/-- A sequence of complete blocks, in order between the positions `lo` and `hi`. -/
inductive Forest (src : Bytes) : Cx → Nat → List Event → Nat → Prop
  | nil {cx lo hi} : lo ≤ hi → Forest src cx lo [] hi
  | atom {cx lo hi e a F} : e.kind = .atom a → SpanOk src e.span → (AtomOk src e.span a ∧ (cx = .list → a = .blankline)) → lo ≤ e.span.start →
      Forest src cx e.span.stop F hi → Forest src cx lo (e :: F) hi
  | leaf {cx lo hi e l inl x G} : Enters src lo e (.leaf l) → LeafOk cx e.span l →
      InlChain src l.isFed e.span.stop inl x.span.start → Exits src x (.leaf l) →
      Forest src cx x.span.stop G hi → Forest src cx lo (e :: inl ++ x :: G) hi
  | term {cx lo hi s1 s2 e inl x G} : s1.kind = .stale → (s2.kind = .stale ∧ cx = .list) → s1.span = e.span →
      Enters src lo e (.leaf .descriptionTerm) →
      InlChain src true e.span.stop inl x.span.start → Exits src x (.leaf .descriptionTerm) →
      Forest src cx x.span.stop G hi → Forest src cx lo (s1 :: s2 :: e :: inl ++ x :: G) hi
  | table {cx lo hi e cap R x G} : Enters src lo e (.container .table) →
      (cx ≠ .list ∧ (cap = [] ∨ LeafSeg src .caption e.span.stop cap x.span.start)) → Rows src e.span.stop R x.span.start →
      Exits src x (.container .table) → Forest src cx x.span.stop G hi → Forest src cx lo (e :: cap ++ R ++ x :: G) hi
  | node {cx lo hi e c F x G} : Enters src lo e (.container c) → (ContOk c ∧ (c.isItem = true ↔ cx = .list)) →
      Forest src (childCx c) e.span.stop F x.span.start → Exits src x (.container c) →
      Forest src cx x.span.stop G hi → Forest src cx lo (e :: F ++ x :: G) hi

theorem InlChain.le {src : Bytes} {fed : Bool} {lo hi : Nat} {es : List Event} (h : InlChain src fed lo es hi) : lo ≤ hi := by
  induction h with
  | nil h => exact h
  | cons _ h1 h2 _ _ ih => have := h1.le; omega

theorem InlChain.mono {src : Bytes} {fed : Bool} {lo lo' hi hi' : Nat} {es : List Event} (h : InlChain src fed lo es hi)
    (h1 : lo' ≤ lo) (h2 : hi ≤ hi') : InlChain src fed lo' es hi' := by
  induction h generalizing lo' with
  | nil h => exact .nil (by omega)
  | cons k s l nl _ ih => exact .cons k s (by omega) nl (ih (Nat.le_refl _) h2)

theorem Enters.mono {src : Bytes} {lo lo' : Nat} {e : Event} {n : Node} (h : Enters src lo e n) (h1 : lo' ≤ lo) :
    Enters src lo' e n := ⟨h.kind, h.node, h.span, by have := h.lo; omega⟩

theorem LeafSeg.mono {src : Bytes} {l : Leaf} {lo lo' hi hi' : Nat} {es : List Event} (h : LeafSeg src l lo es hi)
    (h1 : lo' ≤ lo) (h2 : hi ≤ hi') : LeafSeg src l lo' es hi' := by
  cases h with
  | mk a b c d => exact .mk (a.mono h1) b c (by omega)

theorem Cells.le {src : Bytes} {lo hi : Nat} {es : List Event} (h : Cells src lo es hi) : lo ≤ hi := by
  induction h with
  | nil h => exact h
  | cons a _ b c d e _ ih => have := a.lo; have := a.span.le; have := b.le; have := e.span.le; omega

theorem Cells.mono {src : Bytes} {lo lo' hi hi' : Nat} {es : List Event} (h : Cells src lo es hi)
    (h1 : lo' ≤ lo) (h2 : hi ≤ hi') : Cells src lo' es hi' := by
  induction h generalizing lo' with
  | nil h => exact .nil (by omega)
  | cons a b c d e f _ ih => exact .cons (a.mono h1) b c d e f (ih (Nat.le_refl _) h2)

theorem Cells.append {src : Bytes} {lo mid hi : Nat} {a b : List Event} (h : Cells src lo a mid)
    (h2 : Cells src mid b hi) : Cells src lo (a ++ b) hi := by
  induction h with
  | nil h => exact h2.mono h (Nat.le_refl _)
  | cons a b c d e f _ ih => exact .cons a b c d e f (ih h2)

theorem Rows.le {src : Bytes} {lo hi : Nat} {es : List Event} (h : Rows src lo es hi) : lo ≤ hi := by
  induction h with
  | nil h => exact h
  | cons a b c _ ih => have := a.lo; have := a.span.le; have := b.le; have := c.span.le; omega

theorem Rows.mono {src : Bytes} {lo lo' hi hi' : Nat} {es : List Event} (h : Rows src lo es hi)
    (h1 : lo' ≤ lo) (h2 : hi ≤ hi') : Rows src lo' es hi' := by
  induction h generalizing lo' with
  | nil h => exact .nil (by omega)
  | cons a b c _ ih => exact .cons (a.mono h1) b c (ih (Nat.le_refl _) h2)

theorem Rows.append {src : Bytes} {lo mid hi : Nat} {a b : List Event} (h : Rows src lo a mid)
    (h2 : Rows src mid b hi) : Rows src lo (a ++ b) hi := by
  induction h with
  | nil h => exact h2.mono h (Nat.le_refl _)
  | cons a b c _ ih =>
    have := Rows.cons a b c (ih h2)
    simpa using this

theorem Forest.le {src : Bytes} {cx : Cx} {lo hi : Nat} {es : List Event} (h : Forest src cx lo es hi) : lo ≤ hi := by
  induction h with
  | nil h => exact h
  | atom _ s _ l _ ih => have := s.le; omega
  | leaf a _ b c _ ih => have := a.lo; have := a.span.le; have := b.le; have := c.span.le; omega
  | term _ _ _ a b c _ ih => have := a.lo; have := a.span.le; have := b.le; have := c.span.le; omega
  | table a _ b c _ ih => have := a.lo; have := a.span.le; have := b.le; have := c.span.le; omega
  | node a _ _ c _ ih1 ih => have := a.lo; have := a.span.le; have := c.span.le; omega

theorem Forest.mono {src : Bytes} {cx : Cx} {lo lo' hi hi' : Nat} {es : List Event} (h : Forest src cx lo es hi)
    (h1 : lo' ≤ lo) (h2 : hi ≤ hi') : Forest src cx lo' es hi' := by
  induction h generalizing lo' with
  | nil h => exact .nil (by omega)
  | atom k s a l _ ih => exact .atom k s a (by omega) (ih (Nat.le_refl _) h2)
  | leaf a b c d _ ih => exact .leaf (a.mono h1) b c d (ih (Nat.le_refl _) h2)
  | term a b c d e f _ ih => exact .term a b c (d.mono h1) e f (ih (Nat.le_refl _) h2)
  | table a b c d _ ih => exact .table (a.mono h1) b c d (ih (Nat.le_refl _) h2)
  | node a b c d _ _ ih => exact .node (a.mono h1) b c d (ih (Nat.le_refl _) h2)

theorem Forest.append {src : Bytes} {cx : Cx} {lo mid hi : Nat} {a b : List Event} (h : Forest src cx lo a mid)
    (h2 : Forest src cx mid b hi) : Forest src cx lo (a ++ b) hi := by
  induction h with
  | nil h => exact h2.mono h (Nat.le_refl _)
  | atom k s a l _ ih => exact .atom k s a l (ih h2)
  | leaf a b c d _ ih => have := Forest.leaf a b c d (ih h2); simpa using this
  | term a b c d e f _ ih => have := Forest.term a b c d e f (ih h2); simpa using this
  | table a b c d _ ih => have := Forest.table a b c d (ih h2); simpa using this
  | node a b c d _ _ ih => have := Forest.node a b c d (ih h2); simpa using this

/-! ## Lines -/

/-- Lines in order; each ends at the end of a line of the source. -/
inductive LinesOk (src : Bytes) : Nat → List Span → Nat → Prop
  | nil {lo hi} : lo ≤ hi → LinesOk src lo [] hi
  | cons {lo hi l ls} : SpanOk src l → lo ≤ l.start → NlStop src l.stop → LinesOk src l.stop ls hi → LinesOk src lo (l :: ls) hi

/-- Lines of a leaf, in order. If they are for the inline parser all but the last end at the end of a
line of the source. -/
inductive LeafLines (src : Bytes) (fed : Bool) : Nat → List Span → Nat → Prop
  | nil {lo hi} : lo ≤ hi → LeafLines src fed lo [] hi
  | cons {lo hi l ls} : SpanOk src l → lo ≤ l.start → (fed = true → ls = [] ∨ NlStop src l.stop) →
      LeafLines src fed l.stop ls hi → LeafLines src fed lo (l :: ls) hi

theorem LinesOk.leaf {src : Bytes} {fed : Bool} {lo hi : Nat} {ls : List Span} (h : LinesOk src lo ls hi) :
    LeafLines src fed lo ls hi := by
  induction h with
  | nil h => exact .nil h
  | cons s l nl _ ih => exact .cons s l (fun _ => Or.inr nl) ih

theorem LeafLines.mono {src : Bytes} {fed : Bool} {lo lo' hi hi' : Nat} {ls : List Span} (h : LeafLines src fed lo ls hi)
    (h1 : lo' ≤ lo) (h2 : hi ≤ hi') : LeafLines src fed lo' ls hi' := by
  induction h generalizing lo' with
  | nil h => exact .nil (by omega)
  | cons s l nl _ ih => exact .cons s (by omega) nl (ih (Nat.le_refl _) h2)

theorem LeafLines.le {src : Bytes} {fed : Bool} {lo hi : Nat} {ls : List Span} (h : LeafLines src fed lo ls hi) : lo ≤ hi := by
  induction h with
  | nil h => exact h
  | cons s l _ _ ih => have := s.le; omega

theorem LinesOk.le {src : Bytes} {lo hi : Nat} {ls : List Span} (h : LinesOk src lo ls hi) : lo ≤ hi := by
  induction h with
  | nil h => exact h
  | cons s l _ _ ih => have := s.le; omega

theorem LinesOk.mono {src : Bytes} {lo lo' hi hi' : Nat} {ls : List Span} (h : LinesOk src lo ls hi)
    (h1 : lo' ≤ lo) (h2 : hi ≤ hi') : LinesOk src lo' ls hi' := by
  induction h generalizing lo' with
  | nil h => exact .nil (by omega)
  | cons s l nl _ ih => exact .cons s (by omega) nl (ih (Nat.le_refl _) h2)

theorem LinesOk.append {src : Bytes} {lo mid hi : Nat} {a b : List Span} (h : LinesOk src lo a mid)
    (h2 : LinesOk src mid b hi) : LinesOk src lo (a ++ b) hi := by
  induction h with
  | nil h => exact h2.mono h (Nat.le_refl _)
  | cons s l nl _ ih => exact .cons s l nl (ih h2)

theorem LinesOk.mem {src : Bytes} {lo hi : Nat} {ls : List Span} (h : LinesOk src lo ls hi) {l : Span} (hl : l ∈ ls) :
    SpanOk src l := by
  induction h with
  | nil => simp at hl
  | cons s _ _ _ ih =>
    rcases List.mem_cons.1 hl with rfl | h'
    · exact s
    · exact ih h'

theorem LeafLines.mem {src : Bytes} {fed : Bool} {lo hi : Nat} {ls : List Span} (h : LeafLines src fed lo ls hi) {l : Span} (hl : l ∈ ls) :
    SpanOk src l := by
  induction h with
  | nil => simp at hl
  | cons s _ _ _ ih =>
    rcases List.mem_cons.1 hl with rfl | h'
    · exact s
    · exact ih h'

/-- End of the last line. -/
def lastStop (lo : Nat) (ls : List Span) : Nat :=
  match ls.getLast? with
  | none => lo
  | some l => l.stop

theorem lastStop_cons (lo : Nat) (l : Span) (ls : List Span) : lastStop lo (l :: ls) = lastStop l.stop ls := by
  unfold lastStop
  cases ls with
  | nil => rfl
  | cons m ls => simp [List.getLast?_cons]

theorem LinesOk.split {src : Bytes} {lo hi : Nat} {a b : List Span} (h : LinesOk src lo (a ++ b) hi) :
    LinesOk src lo a (lastStop lo a) ∧ LinesOk src (lastStop lo a) b hi := by
  induction a generalizing lo with
  | nil => exact ⟨.nil (Nat.le_refl _), h⟩
  | cons l a ih =>
    cases h with
    | cons s l nl h =>
      rw [lastStop_cons]
      exact ⟨.cons s l nl (ih h).1, (ih h).2⟩

theorem LinesOk.take_drop {src : Bytes} {lo hi : Nat} {ls : List Span} (h : LinesOk src lo ls hi) (n : Nat) :
    LinesOk src lo (ls.take n) (lastStop lo (ls.take n)) ∧ LinesOk src (lastStop lo (ls.take n)) (ls.drop n) hi := by
  rw [← List.take_append_drop n ls] at h
  exact h.split

/-- Weight of a list of lines, the measure for termination. -/
def weight (ls : List Span) : Nat := (ls.map (fun l => l.len + 1)).sum

@[simp] theorem weight_nil : weight [] = 0 := rfl
@[simp] theorem weight_cons (l : Span) (ls : List Span) : weight (l :: ls) = l.len + 1 + weight ls := by
  simp [weight]
theorem weight_append (a b : List Span) : weight (a ++ b) = weight a + weight b := by
  simp [weight]

theorem linesOk_inl {src : Bytes} {fed : Bool} {lo hi : Nat} {ls : List Span} (h : LeafLines src fed lo ls hi) :
    InlChain src fed lo (ls.map (fun l => (⟨.inline, l⟩ : Event))) hi := by
  induction h with
  | nil h => exact .nil h
  | cons s l nl _ ih =>
    refine .cons rfl s l ?_ ih
    intro hf
    rcases nl hf with h | h
    · subst h; exact Or.inl rfl
    · exact Or.inr h

theorem LeafLines.filter {src : Bytes} {fed : Bool} {lo hi : Nat} {ls : List Span} (p : Span → Bool) (h : LeafLines src fed lo ls hi) :
    LeafLines src fed lo (ls.filter p) hi := by
  induction h with
  | nil h => exact .nil h
  | cons s l nl _ ih =>
    rw [List.filter_cons]
    split
    · refine .cons s l ?_ ih
      intro hf
      rcases nl hf with h | h
      · subst h; exact Or.inl rfl
      · exact Or.inr h
    · exact ih.mono (by have := s.le; omega) (Nat.le_refl _)

/-! ## Sub-spans -/

/-- Trimming a span from the front. -/
theorem SpanOk.advance {src : Bytes} {sp : Span} (h : SpanOk src sp) {n : Nat} (hn : n ≤ sp.stop - sp.start)
    (hb : Bd ((sliceOf src sp).drop n)) : SpanOk src ⟨sp.start + n, sp.stop⟩ := by
  refine ⟨by have := h.le; simp; omega, h.len, ?_, h.be⟩
  simp only
  by_cases he : n = sp.stop - sp.start
  · have : sp.start + n = sp.stop := by have := h.le; omega
    rw [this]; exact h.be
  · have hlt : n < sp.stop - sp.start := by omega
    have h2 := h.len
    intro c hc
    apply hb c
    unfold sliceOf
    rw [List.head?_drop] at hc ⊢
    rw [List.getElem?_take_of_lt hlt, List.getElem?_drop]
    exact hc

theorem sliceOf_length {src : Bytes} {sp : Span} (h : SpanOk src sp) : (sliceOf src sp).length = sp.stop - sp.start := by
  unfold sliceOf
  have := h.le; have := h.len
  simp; omega

theorem sliceOf_bd_safe {src : Bytes} {sp : Span} (h : SpanOk src sp) (hs : Safe src) :
    Bd (sliceOf src sp) ∧ Safe (sliceOf src sp) :=
  ⟨h.bs.take _, (hs.drop _).take _⟩

/-- Trimming a span at the end. -/
theorem SpanOk.cut {src : Bytes} {sp : Span} (h : SpanOk src sp) {n : Nat} (hn : n ≤ sp.stop - sp.start)
    (hb : Bd ((sliceOf src sp).drop n)) : SpanOk src ⟨sp.start, sp.start + n⟩ := by
  have h1 := h.advance hn hb
  exact ⟨by simp, by have := h1.len; have := h1.le; simp at *; omega, h.bs, h1.bs⟩

theorem trimEnd_rest_bd (s : Bytes) : Bd (s.drop (trimEnd s).length) := by
  obtain ⟨w, hw, hws⟩ := trimEnd_spec s
  conv => arg 1; arg 2; rw [hw]
  rw [List.drop_left]
  cases w with
  | nil => simp
  | cons c w => exact Bd_of_lt (isWs_lt (hws c (by simp)))

/-- Result of trimming: a sub-span. -/
structure SubSpan (src : Bytes) (sp sp' : Span) : Prop where
  ok : SpanOk src sp'
  start : sp.start ≤ sp'.start
  stop : sp'.stop ≤ sp.stop

theorem SubSpan.refl {src : Bytes} {sp : Span} (h : SpanOk src sp) : SubSpan src sp sp :=
  ⟨h, Nat.le_refl _, Nat.le_refl _⟩

theorem SubSpan.trans {src : Bytes} {a b c : Span} (h : SubSpan src a b) (h2 : SubSpan src b c) : SubSpan src a c :=
  ⟨h2.ok, by have := h.start; have := h2.start; omega, by have := h.stop; have := h2.stop; omega⟩

theorem TP.trimStart_ok {p : TP} {sp : Span} (h : SpanOk p.src sp) (hs : Safe p.src) :
    Sat Never (p.trimStart sp) (fun r => r = ⟨sp.start + leadingWs (sliceOf p.src sp), sp.stop⟩ ∧ SubSpan p.src sp r) := by
  unfold TP.trimStart
  rw [h.slice]
  have hbs := sliceOf_bd_safe h hs
  refine Sat.ok ⟨rfl, h.advance ?_ ?_, by simp, by simp⟩
  · rw [← sliceOf_length h]; exact Lex.countWhile_le _ _
  · exact countWhile_bd (fun c hc => isWs_lt hc) hbs.1 hbs.2

theorem TP.trimEnd_ok {p : TP} {sp : Span} (h : SpanOk p.src sp) :
    Sat Never (p.trimEnd sp) (fun r => r = ⟨sp.start, sp.start + (Jotdown.trimEnd (sliceOf p.src sp)).length⟩ ∧
      SubSpan p.src sp r) := by
  unfold TP.trimEnd
  rw [h.slice]
  have hl := trimEnd_length_le (sliceOf p.src sp)
  rw [sliceOf_length h] at hl
  refine Sat.ok ⟨rfl, h.cut hl (trimEnd_rest_bd _), by simp, ?_⟩
  have := h.le
  simp; omega

theorem TP.trim_ok {p : TP} {sp : Span} (h : SpanOk p.src sp) (hs : Safe p.src) :
    Sat Never (p.trim sp) (fun r => SubSpan p.src sp r) := by
  unfold TP.trim
  refine Sat.bind (TP.trimStart_ok h hs) ?_
  intro r hr
  refine (TP.trimEnd_ok hr.2.ok).mono ?_
  intro r' hr'
  exact hr.2.trans hr'.2

/-- Line by line sub-spans. -/
inductive Subs (src : Bytes) : List Span → List Span → Prop
  | nil : Subs src [] []
  | cons {a b as bs} : SubSpan src a b → Subs src as bs → Subs src (a :: as) (b :: bs)

/-- Trimming the ends of the lines. -/
theorem mapLines_trim {src : Bytes} {f : Span → R Span} (hf : ∀ sp, SpanOk src sp → Sat Never (f sp) (SubSpan src sp))
    {lo hi : Nat} {ls : List Span} (h : LeafLines src false lo ls hi) :
    Sat Never (mapLines f ls) (fun r => LeafLines src false lo r hi) := by
  induction h with
  | nil h => exact Sat.ok (.nil h)
  | cons s l nl _ ih =>
    unfold mapLines
    refine Sat.bind (hf _ s) ?_
    intro r hr
    refine Sat.bind ih ?_
    intro rs hrs
    exact Sat.ok (.cons hr.ok (by have := hr.start; omega) (by simp) (hrs.mono hr.stop (Nat.le_refl _)))

theorem mapLines_sub {src : Bytes} {f : Span → R Span}
    (hf : ∀ sp, SpanOk src sp → Sat Never (f sp) (fun r => SubSpan src sp r ∧ r.stop = sp.stop))
    {lo hi : Nat} {ls : List Span} (h : LinesOk src lo ls hi) :
    Sat Never (mapLines f ls) (fun r => LinesOk src lo r hi ∧ Subs src ls r) := by
  induction h with
  | nil h => exact Sat.ok ⟨.nil h, .nil⟩
  | cons s l nl _ ih =>
    unfold mapLines
    refine Sat.bind (hf _ s) ?_
    intro r ⟨hr, hst⟩
    refine Sat.bind ih ?_
    intro rs hrs
    exact Sat.ok ⟨.cons hr.ok (by have := hr.start; omega) (by rw [hst]; exact nl) (hrs.1.mono hr.stop (Nat.le_refl _)), .cons hr hrs.2⟩

/-- Trimming the last line. -/
theorem trimLast_ok {p : TP} {fed : Bool} {lo hi : Nat} {ls : List Span} (h : LeafLines p.src fed lo ls hi) :
    Sat Never (p.trimLast ls) (fun r => LeafLines p.src fed lo r hi) := by
  unfold TP.trimLast
  rcases List.eq_nil_or_concat ls with h0 | ⟨init, l, rfl⟩
  · subst h0; exact Sat.ok h
  · rw [List.concat_eq_append] at h ⊢
    rw [List.getLast?_append]
    simp only [List.getLast?_singleton, Option.some_or]
    have hm := h.mem (l := l) (by simp)
    refine Sat.bind (TP.trimEnd_ok hm) ?_
    intro r hr
    rw [List.dropLast_concat]
    refine Sat.ok ?_
    induction init generalizing lo with
    | nil =>
      cases h with
      | cons s hl nl h3 =>
        exact .cons hr.2.ok (by have := hr.2.start; omega) (fun _ => Or.inl rfl) (.nil (by have := hr.2.stop; have := h3.le; omega))
    | cons a init ih =>
      cases h with
      | cons s hl nl h3 =>
        refine .cons s hl ?_ (ih h3)
        intro hf
        rcases nl hf with h | h
        · simp at h
        · exact Or.inr h

theorem Subs.weight {src : Bytes} {a b : List Span} (h : Subs src a b) : Block.weight b ≤ Block.weight a := by
  induction h with
  | nil => simp
  | cons h _ ih => simp [Span.len]; have := h.start; have := h.stop; omega

end Jotdown.Block
