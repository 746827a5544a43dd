import Verif.Proofs.Shape
import Verif.Model.Parser
/-! # The rest of the block events, given the open containers -/
namespace Jotdown.Block
open Jotdown

/-- May an atom stand directly inside a container? -/
def atomIn : Container → Atom → Bool
  | .list .., a => a == .blankline
  | .table, _ => false
  | .tableRow _, _ => false
  | _, _ => true

/-- A list has a valid type, the class of a div is a name. -/
def Fine : Container → Prop
  | .list ty _ => TyOk ty
  | .div c => c.all Attr.isName = true
  | _ => True

/-- The rest `es` of the block events: the containers `st` are open, innermost first, and the spans
start at `n` or later. -/
inductive BT (src : Bytes) : List Container → Nat → List Event → Prop
  | done {n} : BT src [] n []
  | atom {c st n e a es} : e.kind = .atom a → SpanOk src e.span → AtomOk src e.span a → atomIn c a = true →
      n ≤ e.span.start → BT src (c :: st) e.span.stop es → BT src (c :: st) n (e :: es)
  | stale {c st n e es} : e.kind = .stale → nextIs es (.atom .blankline) = false → BT src (c :: st) n es →
      BT src (c :: st) n (e :: es)
  | enter {c d st n e es} : Enters src n e (.container d) → mayContain c (.container d) = true → Fine d →
      BT src (d :: c :: st) e.span.stop es → BT src (c :: st) n (e :: es)
  | exit {c st n e es} : Exits src e (.container c) → n ≤ e.span.start → BT src st e.span.stop es →
      BT src (c :: st) n (e :: es)
  | leaf {c st n l e inl x es} : Enters src n e (.leaf l) → mayContain c (.leaf l) = true →
      InlChain src l.isFed e.span.stop inl x.span.start → Exits src x (.leaf l) →
      BT src (c :: st) (if l = .caption then n else x.span.stop) es → BT src (c :: st) n (e :: inl ++ x :: es)

theorem BT.mono {src : Bytes} {st : List Container} {n m : Nat} {es : List Event} (h : BT src st n es) (hm : m ≤ n) : BT src st m es := by
  induction h generalizing m with
  | done => exact .done
  | atom a b c d e f _ => exact .atom a b c d (by omega) f
  | stale a b _ ih => exact .stale a b (ih hm)
  | enter a b c d _ => exact .enter (a.mono hm) b c d
  | exit a b c _ => exact .exit a (by omega) c
  | leaf a b c d e ih =>
    refine .leaf (a.mono hm) b c d ?_
    split
    · rename_i h; rw [if_pos h] at e ih; exact ih hm
    · rename_i h; rw [if_neg h] at e; exact e

section
variable {src : Bytes} {st : List Container} {lo hi : Nat}

theorem bt_leaf {c : Container} {l : Leaf} {n : Nat} {e x : Event} {inl K : List Event} (hl : l ≠ .caption) (he : Enters src n e (.leaf l))
    (hm : mayContain c (.leaf l) = true) (hi : InlChain src l.isFed e.span.stop inl x.span.start) (hx : Exits src x (.leaf l))
    (h : BT src (c :: st) x.span.stop K) : BT src (c :: st) n (e :: (inl ++ x :: K)) := by
  have := BT.leaf (st := st) he hm hi hx (by rw [if_neg hl]; exact h)
  simpa using this

theorem bt_cells {es : List Event} (h : Cells src lo es hi) {hd : Bool} {K : List Event} (hK : BT src (.tableRow hd :: st) hi K) :
    BT src (.tableRow hd :: st) lo (es ++ K) := by
  induction h with
  | nil h => exact hK.mono h
  | @cons lo hi e i x a G h1 h2 h3 h4 h5 h6 h7 ih =>
    have := bt_leaf (by simp) h1 (c := .tableRow hd) (st := st) rfl (.cons (fed := true) h2 h3 h4 (fun _ => Or.inl rfl) (.nil h5)) h6 (ih hK)
    simpa using this

theorem bt_rows {es : List Event} (h : Rows src lo es hi) {K : List Event} (hK : BT src (.table :: st) hi K) :
    BT src (.table :: st) lo (es ++ K) := by
  induction h with
  | nil h => exact hK.mono h
  | @cons lo hi e C x hd G h1 h2 h3 h4 ih =>
    simp only [List.cons_append, List.append_assoc]
    exact .enter h1 rfl trivial (bt_cells h2 (.exit h3 (Nat.le_refl _) (ih hK)))

theorem atomIn_cx {cx : Cx} {c : Container} {a : Atom} (hc : CxFits cx c) (h : cx = .list → a = .blankline) : atomIn c a = true := by
  cases cx <;> simp only [CxFits] at hc
  · rcases hc with rfl | ⟨p, rfl⟩ <;> rfl
  · obtain ⟨t, b, rfl⟩ := hc
    rw [h rfl]; rfl
  · rcases hc with ⟨b, rfl⟩ | rfl | ⟨b, rfl⟩ | ⟨b, rfl⟩ <;> rfl

theorem fine_of_contOk {c : Container} (h : ContOk c) : Fine c := by
  cases c <;> first | exact h | trivial

theorem bt_forest {cx : Cx} {es : List Event} (h : Forest src cx lo es hi) {c : Container} (hc : CxFits cx c) {K : List Event}
    (hK : BT src (c :: st) hi K) : BT src (c :: st) lo (es ++ K) := by
  induction h generalizing c st K with
  | nil h => exact hK.mono h
  | atom k a b d _ ih => exact .atom k a b.1 (atomIn_cx hc b.2) d (ih hc hK)
  | @leaf cx lo hi e l inl x G h1 h2 h3 h4 _ ih =>
    simp only [List.cons_append, List.append_assoc]
    exact bt_leaf (by rintro rfl; exact h2) h1 (mayContain_leaf hc h2) h3 h4 (ih hc hK)
  | @term cx lo hi s1 s2 e inl x G h1 h2 h3 h4 h5 h6 _ ih =>
    have hcx := h2.2
    subst hcx
    simp only [List.cons_append, List.append_assoc]
    have := bt_leaf (by simp) h4 (mayContain_leaf (sp := e.span) (l := .descriptionTerm) hc rfl) h5 h6 (ih hc hK)
    refine .stale h1 ?_ (.stale h2.1 ?_ this)
    · simp [nextIs, h2.1]
    · simp [nextIs, h4.kind]
  | @table cx lo hi e cap R x G h1 h2 h3 h4 _ ih =>
    simp only [List.cons_append, List.append_assoc]
    refine .enter h1 (mayContain_table hc h2.1) trivial ?_
    have hR := bt_rows (st := c :: st) h3 (.exit h4 (Nat.le_refl _) (ih hc hK))
    rcases h2.2 with rfl | hseg
    · exact hR
    · cases hseg with
      | mk a b c' d =>
        have := BT.leaf (src := src) (c := .table) (st := c :: st) a rfl b c' (by rw [if_pos rfl]; exact hR)
        simpa using this
  | @node cx lo hi e d F x G h1 h2 h3 h4 _ ih1 ih2 =>
    simp only [List.cons_append, List.append_assoc]
    exact .enter h1 (mayContain_cont hc h2.1 h2.2) (fine_of_contOk h2.1) (ih1 (childCx_fits h2.1) (.exit h4 (Nat.le_refl _) (ih2 hc hK)))

theorem bt_leafSeg {l : Leaf} (hl : l ≠ .caption) {es : List Event} (h : LeafSeg src l lo es hi) {c : Container}
    (hm : mayContain c (.leaf l) = true) {K : List Event} (hK : BT src (c :: st) hi K) :
    BT src (c :: st) lo (es ++ K) := by
  cases h with
  | mk a b x d =>
    have := bt_leaf hl a hm b x (hK.mono d)
    simpa using this

theorem bt_sections {b u u' : Nat} {es : List Event} (h : Sections src b u u' lo es hi) {c : Container}
    (hc : CxFits .top c) {K : List Event} (hK : BT src (c :: st) hi K) :
    BT src (c :: st) lo (es ++ K) := by
  induction h generalizing c st K with
  | nil h => exact hK.mono h
  | @cons b u u' u'' lo m1 m2 m3 hi n pos A e H F S x R h1 h2 h3 h4 h5 h6 h7 h8 h9 h10 ih1 ih2 =>
    simp only [List.cons_append, List.append_assoc]
    have hm : mayContain c (.container (.section pos)) = true := by
      rcases hc with rfl | ⟨p, rfl⟩ <;> rfl
    refine bt_forest h1.forest hc (.enter h2 hm trivial ?_)
    exact bt_leafSeg (by simp) h6 rfl (bt_forest h7 (Or.inr ⟨_, rfl⟩) (ih1 (Or.inr ⟨_, rfl⟩) (.exit h9 (Nat.le_refl _) (ih2 hc hK))))

/-- The block events of a document. -/
theorem DocShape.bt {src : Bytes} {evs : List Event} (h : DocShape src evs) :
    ∃ es, evs = ⟨.enter (.container .document), ⟨0, 0⟩⟩ :: es ∧ BT src [.document] 0 es := by
  obtain ⟨F, S, m, u, h1, h2, h3⟩ := h.ev
  refine ⟨F ++ (S ++ [⟨.exit (.container .document), ⟨src.length, src.length⟩⟩]), by rw [h1]; simp, ?_⟩
  have hsp : SpanOk src ⟨src.length, src.length⟩ := .empty (Nat.le_refl _) (by simp)
  exact bt_forest h2 (Or.inl rfl) (bt_sections h3 (Or.inl rfl) (.exit ⟨rfl, hsp⟩ (Nat.le_refl _) .done))

end

end Jotdown.Block
