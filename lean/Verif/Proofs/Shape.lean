import Verif.Proofs.Top
import Verif.Spec.Block
/-! # From the shape of block events to the specifications -/
namespace Jotdown.Block
open Jotdown

/-- The container whose children stand in a context. -/
def CxFits : Cx → Container → Prop
  | .top, c => c = .document ∨ ∃ p, c = .section p
  | .list, c => ∃ t b, c = .list t b
  | .inner, c => (∃ b, c = .div b) ∨ c = .blockquote ∨ (∃ k, c = .listItem k) ∨ ∃ l, c = .footnote l

theorem childCx_fits {c : Container} (h : ContOk c) : CxFits (childCx c) c := by
  cases c <;> simp [ContOk] at h <;> simp [childCx, CxFits]

section
variable {src : Bytes} {st : List Node} {lo hi : Nat}

theorem nested_enter {c : Container} {e : Event} {n : Node} (he : e.kind = .enter n) (K : List Event) :
    nested (.container c :: st) (e :: K) = (mayContain c n && nested (n :: .container c :: st) K) := by
  rw [nested.eq_def]; simp only [he]

theorem nested_exit {e : Event} {n : Node} (he : e.kind = .exit n) (K : List Event) :
    nested (n :: st) (e :: K) = nested st K := by
  rw [nested.eq_def]; simp [he]

theorem nested_inline {e : Event} {l : Leaf} (he : e.kind = .inline) (K : List Event) :
    nested (.leaf l :: st) (e :: K) = nested (.leaf l :: st) K := by
  rw [nested.eq_def]; simp only [he]

theorem nested_atom {e : Event} {a : Atom} {c : Container} (he : e.kind = .atom a) (K : List Event) :
    nested (.container c :: st) (e :: K) = nested (.container c :: st) K := by
  rw [nested.eq_def]; simp only [he]

theorem nested_stale {e : Event} (he : e.kind = .stale) (K : List Event) : nested st (e :: K) = nested st K := by
  rw [nested.eq_def]; simp only [he]

theorem nested_inl {l : Leaf} {fed : Bool} {es : List Event} (h : InlChain src fed lo es hi) (K : List Event) :
    nested (.leaf l :: st) (es ++ K) = nested (.leaf l :: st) K := by
  induction h with
  | nil => rfl
  | cons k _ _ _ _ ih => rw [List.cons_append, nested_inline k, ih]

/-- A complete leaf. -/
theorem nested_leaf {c : Container} {l : Leaf} {e x : Event} {inl : List Event} (hm : mayContain c (.leaf l) = true)
    (he : e.kind = .enter (.leaf l)) (hx : x.kind = .exit (.leaf l)) {a b : Nat} {fed : Bool} (h : InlChain src fed a inl b) (K : List Event) :
    nested (.container c :: st) (e :: inl ++ x :: K) = nested (.container c :: st) K := by
  rw [List.cons_append, nested_enter he]
  simp only [hm, Bool.true_and]
  rw [nested_inl h, nested_exit hx]

theorem nested_cells {es : List Event} (h : Cells src lo es hi) {hd : Bool} (K : List Event) :
    nested (.container (.tableRow hd) :: st) (es ++ K) = nested (.container (.tableRow hd) :: st) K := by
  induction h with
  | nil => rfl
  | @cons lo hi e i x a G h1 h2 h3 h4 h5 h6 h7 ih =>
    have := nested_leaf (src := src) (c := .tableRow hd) (st := st) (l := .tableCell a) rfl h1.kind h6.kind
      (.cons (fed := true) h2 h3 (Nat.le_refl _) (fun _ => Or.inl rfl) (.nil (Nat.le_refl _))) (G ++ K)
    simp only [List.cons_append, List.nil_append] at this ⊢
    rw [this, ih]

theorem nested_rows {es : List Event} (h : Rows src lo es hi) (K : List Event) :
    nested (.container .table :: st) (es ++ K) = nested (.container .table :: st) K := by
  induction h with
  | nil => rfl
  | @cons lo hi e C x hd G h1 h2 h3 h4 ih =>
    rw [List.cons_append, List.cons_append, nested_enter h1.kind]
    simp only [mayContain, Bool.true_and, List.append_assoc, List.cons_append]
    rw [nested_cells h2, nested_exit h3.kind]
    simpa using ih

theorem mayContain_leaf {cx : Cx} {c : Container} {sp : Span} {l : Leaf} (hc : CxFits cx c) (h : LeafOk cx sp l) :
    mayContain c (.leaf l) = true := by
  cases cx <;> cases l <;> simp [LeafOk] at h <;> simp only [CxFits] at hc
  all_goals first
    | (rcases hc with ⟨b, rfl⟩ | rfl | ⟨b, rfl⟩ | ⟨b, rfl⟩ <;> rfl)
    | (rcases hc with rfl | ⟨p, rfl⟩ <;> rfl)
    | (obtain ⟨t, b, rfl⟩ := hc; rfl)

theorem mayContain_cont {cx : Cx} {c d : Container} (hc : CxFits cx c) (h : ContOk d) (hi : d.isItem = true ↔ cx = .list) :
    mayContain c (.container d) = true := by
  cases cx <;> cases d <;> simp [ContOk] at h <;> simp [Container.isItem] at hi <;> simp only [CxFits] at hc
  all_goals first
    | (rcases hc with ⟨b, rfl⟩ | rfl | ⟨b, rfl⟩ | ⟨b, rfl⟩ <;> rfl)
    | (rcases hc with rfl | ⟨p, rfl⟩ <;> rfl)
    | (obtain ⟨t, b, rfl⟩ := hc; rfl)

theorem mayContain_table {cx : Cx} {c : Container} (hc : CxFits cx c) (h : cx ≠ .list) :
    mayContain c (.container .table) = true := by
  cases cx <;> simp at h <;> simp only [CxFits] at hc
  all_goals first
    | (rcases hc with rfl | ⟨p, rfl⟩ <;> rfl)
    | (rcases hc with ⟨b, rfl⟩ | rfl | ⟨b, rfl⟩ | ⟨b, rfl⟩ <;> rfl)

theorem nested_forest {cx : Cx} {es : List Event} (h : Forest src cx lo es hi) {c : Container} (hc : CxFits cx c) (K : List Event) :
    nested (.container c :: st) (es ++ K) = nested (.container c :: st) K := by
  induction h generalizing c st K with
  | nil => rfl
  | atom k _ _ _ _ ih =>
    rw [List.cons_append, nested_atom k]
    exact ih hc K
  | @leaf cx lo hi e l inl x G h1 h2 h3 h4 _ ih =>
    have := nested_leaf (st := st) (mayContain_leaf hc h2) h1.kind h4.kind h3 (G ++ K)
    simp only [List.cons_append, List.append_assoc] at this ⊢
    rw [this, ih hc]
  | @term cx lo hi s1 s2 e inl x G h1 h2 h3 h4 h5 h6 _ ih =>
    have hcx := h2.2
    subst hcx
    have := nested_leaf (st := st) (mayContain_leaf (sp := e.span) (l := .descriptionTerm) hc rfl) h4.kind h6.kind h5 (G ++ K)
    simp only [List.cons_append, List.append_assoc] at this ⊢
    rw [nested_stale h1, nested_stale h2.1, this, ih hc]
  | @table cx lo hi e cap R x G h1 h2 h3 h4 _ ih =>
    simp only [List.cons_append, List.append_assoc]
    rw [nested_enter h1.kind]
    simp only [mayContain_table hc h2.1, Bool.true_and]
    have hcap : ∀ K, nested (.container .table :: .container c :: st) (cap ++ K) = nested (.container .table :: .container c :: st) K := by
      intro K
      rcases h2.2 with rfl | hseg
      · rfl
      · cases hseg with
        | mk a b c' d =>
          have := nested_leaf (c := .table) (st := .container c :: st) (l := .caption) rfl a.kind c'.kind b K
          simpa using this
    rw [hcap, nested_rows h3, nested_exit h4.kind]
    simpa using ih hc K
  | @node cx lo hi e d F x G h1 h2 h3 h4 _ ih1 ih2 =>
    simp only [List.cons_append, List.append_assoc]
    rw [nested_enter h1.kind]
    simp only [mayContain_cont hc h2.1 h2.2, Bool.true_and]
    rw [ih1 (childCx_fits h2.1), nested_exit h4.kind]
    simpa using ih2 hc K

theorem nested_leafSeg {l : Leaf} {es : List Event} (h : LeafSeg src l lo es hi) {c : Container}
    (hm : mayContain c (.leaf l) = true) (K : List Event) :
    nested (.container c :: st) (es ++ K) = nested (.container c :: st) K := by
  cases h with
  | mk a b x d =>
    have := nested_leaf (st := st) hm a.kind x.kind b K
    simpa using this

theorem nested_sections {b u u' : Nat} {es : List Event} (h : Sections src b u u' lo es hi) {c : Container}
    (hc : CxFits .top c) (K : List Event) :
    nested (.container c :: st) (es ++ K) = nested (.container c :: st) K := by
  induction h generalizing c st K with
  | nil => rfl
  | @cons b u u' u'' lo m1 m2 m3 hi n pos A e H F S x R h1 h2 h3 h4 h5 h6 h7 h8 h9 h10 ih1 ih2 =>
    simp only [List.cons_append, List.append_assoc]
    rw [nested_forest h1.forest hc, nested_enter h2.kind]
    have hm : mayContain c (.container (.section pos)) = true := by
      rcases hc with rfl | ⟨p, rfl⟩ <;> rfl
    simp only [hm, Bool.true_and]
    rw [nested_leafSeg h6 rfl, nested_forest h7 (Or.inr ⟨_, rfl⟩), ih1 (Or.inr ⟨_, rfl⟩), nested_exit h9.kind]
    simpa using ih2 hc K

/-! ## Sections -/

theorem walk_inl {fed : Bool} {es : List Event} (h : InlChain src fed lo es hi) (o : List Nat) (d : Nat) (K : List Event) :
    secWalk o .content d (es ++ K) = secWalk o .content d K := by
  induction h with
  | nil => rfl
  | cons k _ _ _ _ ih => rw [List.cons_append, secWalk.eq_def]; simp only [k]; exact ih

/-- Not a heading. -/
theorem walk_enter {e : Event} {n : Node} (he : e.kind = .enter n) (hn : ∀ l hs p, n ≠ .leaf (.heading l hs p))
    (hn2 : ∀ p, n ≠ .container (.section p)) (o : List Nat) (d : Nat) (K : List Event) :
    secWalk o .content d (e :: K) = secWalk o .content (d + 1) K := by
  rw [secWalk.eq_def]
  cases n with
  | leaf l => cases l <;> simp only [he] ; exact absurd rfl (hn _ _ _)
  | container c => cases c <;> simp only [he] ; exact absurd rfl (hn2 _)

theorem walk_exit {e : Event} {n : Node} (he : e.kind = .exit n)
    (hn2 : ∀ p, n ≠ .container (.section p)) (o : List Nat) (d : Nat) (K : List Event) :
    secWalk o .content (d + 1) (e :: K) = secWalk o .content d K := by
  rw [secWalk.eq_def]
  cases n with
  | leaf l => cases l <;> simp [he]
  | container c => cases c <;> simp [he] ; exact absurd rfl (hn2 _)

theorem walk_skip {e : Event} (he : (∃ a, e.kind = .atom a) ∨ e.kind = .stale ∨ e.kind = .inline) (o : List Nat) (d : Nat) (K : List Event) :
    secWalk o .content d (e :: K) = secWalk o .content d K := by
  rw [secWalk.eq_def]
  rcases he with ⟨a, he⟩ | he | he
  · cases a <;> simp only [he]
  · simp only [he]
  · simp only [he]

theorem walk_leaf {l : Leaf} {e x : Event} {inl : List Event} (hl : ∀ n hs p, l ≠ .heading n hs p)
    (he : e.kind = .enter (.leaf l)) (hx : x.kind = .exit (.leaf l)) {a b : Nat} {fed : Bool} (h : InlChain src fed a inl b) (o : List Nat) (d : Nat)
    (K : List Event) : secWalk o .content d (e :: (inl ++ x :: K)) = secWalk o .content d K := by
  rw [walk_enter he (by simpa using hl) (by simp), walk_inl h, walk_exit hx (by simp)]

theorem walk_cells {es : List Event} (h : Cells src lo es hi) (o : List Nat) (d : Nat) (K : List Event) :
    secWalk o .content d (es ++ K) = secWalk o .content d K := by
  induction h with
  | nil => rfl
  | @cons lo hi e i x a G h1 h2 h3 h4 h5 h6 h7 ih =>
    have := walk_leaf (src := src) (l := .tableCell a) (by simp) h1.kind h6.kind
      (.cons (fed := true) h2 h3 (Nat.le_refl _) (fun _ => Or.inl rfl) (.nil (Nat.le_refl _))) o d (G ++ K)
    simp only [List.cons_append, List.nil_append] at this ⊢
    rw [this, ih]

theorem walk_rows {es : List Event} (h : Rows src lo es hi) (o : List Nat) (d : Nat) (K : List Event) :
    secWalk o .content d (es ++ K) = secWalk o .content d K := by
  induction h with
  | nil => rfl
  | @cons lo hi e C x hd G h1 h2 h3 h4 ih =>
    simp only [List.cons_append, List.append_assoc]
    rw [walk_enter h1.kind (by simp) (by simp), walk_cells h2, walk_exit h3.kind (by simp), ih]

theorem walk_forest {cx : Cx} {es : List Event} (h : Forest src cx lo es hi) (o : List Nat) {d : Nat} (hd : d = 0 → cx = .top)
    (K : List Event) : secWalk o .content d (es ++ K) = secWalk o .content d K := by
  induction h generalizing d K with
  | nil => rfl
  | atom k _ _ _ _ ih =>
    rw [List.cons_append, walk_skip (Or.inl ⟨_, k⟩)]
    exact ih hd K
  | @leaf cx lo hi e l inl x G h1 h2 h3 h4 _ ih =>
    simp only [List.cons_append, List.append_assoc]
    by_cases hl : ∃ n hs p, l = .heading n hs p
    · obtain ⟨n, hs, p, rfl⟩ := hl
      obtain ⟨rfl, rfl, -⟩ := h2
      have hd0 : d ≠ 0 := fun h => by simpa using hd h
      rw [secWalk.eq_def]
      simp only [h1.kind, Bool.not_false, Bool.true_and]
      rw [show (d != 0) = true by simpa using hd0, Bool.true_and, walk_inl h3, walk_exit h4.kind (by simp), ih hd]
    · rw [walk_leaf (fun n hs p hh => hl ⟨n, hs, p, hh⟩) h1.kind h4.kind h3, ih hd]
  | @term cx lo hi s1 s2 e inl x G h1 h2 h3 h4 h5 h6 _ ih =>
    simp only [List.cons_append, List.append_assoc]
    rw [walk_skip (Or.inr (Or.inl h1)), walk_skip (Or.inr (Or.inl h2.1)), walk_leaf (by simp) h4.kind h6.kind h5, ih hd]
  | @table cx lo hi e cap R x G h1 h2 h3 h4 _ ih =>
    simp only [List.cons_append, List.append_assoc]
    have hcap : ∀ d K, secWalk o .content d (cap ++ K) = secWalk o .content d K := by
      intro d K
      rcases h2.2 with rfl | hseg
      · rfl
      · cases hseg with
        | mk a b c' d =>
          simp only [List.cons_append, List.append_assoc, List.nil_append]
          exact walk_leaf (by simp) a.kind c'.kind b _ _ K
    rw [walk_enter h1.kind (by simp) (by simp), hcap, walk_rows h3, walk_exit h4.kind (by simp), ih hd]
  | @node cx lo hi e c F x G h1 h2 h3 h4 _ ih1 ih2 =>
    have hns : ∀ p, c ≠ .section p := by
      intro p hp; subst hp; exact h2.1
    simp only [List.cons_append, List.append_assoc]
    rw [walk_enter h1.kind (by simp) (by simpa using hns), ih1 (by omega), walk_exit h4.kind (by simpa using hns), ih2 hd]

theorem walk_attrs {A : List Event} (h : ∀ e ∈ A, e.kind = .atom .attributes) (o : List Nat) (s : SecPos) (hs : ∀ p c, s ≠ .start p c)
    (d : Nat) (K : List Event) :
    secWalk o s d (A ++ K) = secWalk o s d K := by
  induction A with
  | nil => rfl
  | cons a A ih =>
    rw [List.cons_append, secWalk.eq_def]
    have := ih (fun e he => h e (by simp [he]))
    have hk := h a (by simp)
    cases s with
    | start p c => exact absurd rfl (hs _ _)
    | content => simp only [hk]; exact this
    | closed n => simp only [hk]; exact this

/-- Position before consecutive sections, the last of which had level `u`. -/
def SecsPos (s : SecPos) (u : Nat) : Prop := (s = .content ∧ u = 65535) ∨ s = .closed u

theorem walk_enter_section {e : Event} {p : Nat} (he : e.kind = .enter (.container (.section p))) (o : List Nat) (s : SecPos)
    (hs : ∀ p c, s ≠ .start p c) (K : List Event) :
    secWalk o s 0 (e :: K) = secWalk o (.start p s.lastClosed) 0 K := by
  rw [secWalk.eq_def]
  cases s with
  | start p c => exact absurd rfl (hs _ _)
  | content => simp [he]
  | closed n => simp [he]

theorem walk_exit_section {e : Event} {p : Nat} (he : e.kind = .exit (.container (.section p))) (n : Nat) (o : List Nat) (s : SecPos)
    (hs : ∀ p c, s ≠ .start p c) (K : List Event) :
    secWalk (n :: o) s 0 (e :: K) = secWalk o (.closed n) 0 K := by
  rw [secWalk.eq_def]
  cases s with
  | start p c => exact absurd rfl (hs _ _)
  | content => simp [he]
  | closed n => simp [he]

theorem walk_sections {b u u' : Nat} {es : List Event} (h : Sections src b u u' lo es hi) (o : List Nat) (ho : ∀ l ∈ o, l < b)
    {s : SecPos} (hs : SecsPos s u) (K : List Event) (R : Bool)
    (hK : ∀ s', SecsPos s' u' → secWalk o s' 0 K = R) : secWalk o s 0 (es ++ K) = R := by
  induction h generalizing o s K R with
  | nil => exact hK s hs
  | @cons b u u' u'' lo m1 m2 m3 hi n pos A e H F S x R' h1 h2 h3 h4 h5 h6 h7 h8 h9 h10 ih1 ih2 =>
    have hns : ∀ p c, s ≠ .start p c := by
      rcases hs with ⟨rfl, -⟩ | rfl <;> simp
    simp only [List.cons_append, List.append_assoc]
    rw [walk_attrs h1.attrs o s hns, walk_enter_section h2.kind o s hns]
    cases h6 with
    | mk a1 a2 a3 a4 =>
      simp only [List.cons_append, List.append_assoc, List.nil_append]
      rw [secWalk.eq_def]
      have hall : o.all (· < n) = true := by
        rw [List.all_eq_true]
        intro l hl
        have := ho l hl
        simp; omega
      have hcl : (s.lastClosed.all (n ≤ ·)) = true := by
        rcases hs with ⟨rfl, -⟩ | rfl
        · rfl
        · simpa [SecPos.lastClosed] using h5
      simp only [a1.kind, beq_self_eq_true, Bool.true_and, hall, hcl]
      rw [walk_inl a2, walk_exit a3.kind (by simp), walk_forest h7 _ (fun _ => rfl)]
      refine ih1 (n :: o) ?_ (Or.inl ⟨rfl, rfl⟩) _ _ ?_
      · intro l hl
        rcases List.mem_cons.1 hl with rfl | hl
        · omega
        · have := ho l hl; omega
      · intro s' hs'
        rw [walk_exit_section h9.kind n o s' (by rcases hs' with ⟨rfl, -⟩ | rfl <;> simp)]
        exact ih2 o ho (Or.inr rfl) K R hK

/-! ## Spans -/

/-- All visible spans of a list of events are valid. -/
def SpansOk (src : Bytes) (es : List Event) : Prop := ∀ e ∈ es, e.kind ≠ .stale → SpanOk src e.span

theorem SpansOk.nil : SpansOk src [] := by intro e he; simp at he
theorem SpansOk.cons {e : Event} {es : List Event} (h : SpanOk src e.span) (h2 : SpansOk src es) : SpansOk src (e :: es) := by
  intro a ha hk
  rcases List.mem_cons.1 ha with rfl | ha
  · exact h
  · exact h2 a ha hk
theorem SpansOk.stale {e : Event} {es : List Event} (h : e.kind = .stale) (h2 : SpansOk src es) : SpansOk src (e :: es) := by
  intro a ha hk
  rcases List.mem_cons.1 ha with rfl | ha
  · exact absurd h hk
  · exact h2 a ha hk
theorem SpansOk.append {a b : List Event} (h : SpansOk src a) (h2 : SpansOk src b) : SpansOk src (a ++ b) := by
  intro e he hk
  rcases List.mem_append.1 he with he | he
  · exact h e he hk
  · exact h2 e he hk

theorem InlChain.spans {fed : Bool} {es : List Event} (h : InlChain src fed lo es hi) : SpansOk src es := by
  induction h with
  | nil => exact .nil
  | cons _ s _ _ _ ih => exact .cons s ih

theorem LeafSeg.spans {l : Leaf} {es : List Event} (h : LeafSeg src l lo es hi) : SpansOk src es := by
  cases h with
  | mk a b c d => exact .cons a.span (b.spans.append (.cons c.span .nil))

theorem Cells.spans {es : List Event} (h : Cells src lo es hi) : SpansOk src es := by
  induction h with
  | nil => exact .nil
  | cons a _ b _ _ c _ ih => exact .cons a.span (.cons b (.cons c.span ih))

theorem Rows.spans {es : List Event} (h : Rows src lo es hi) : SpansOk src es := by
  induction h with
  | nil => exact .nil
  | cons a b c _ ih =>
    rw [List.cons_append]
    exact .cons a.span (b.spans.append (.cons c.span ih))

theorem Forest.spans {cx : Cx} {es : List Event} (h : Forest src cx lo es hi) : SpansOk src es := by
  induction h with
  | nil => exact .nil
  | atom _ s _ _ _ ih => exact .cons s ih
  | leaf a _ b c _ ih =>
    rw [List.cons_append]
    exact .cons a.span (b.spans.append (.cons c.span ih))
  | term h1 h2 _ a b c _ ih =>
    rw [List.cons_append, List.cons_append, List.cons_append]
    exact .stale h1 (.stale h2.1 (.cons a.span (b.spans.append (.cons c.span ih))))
  | table a b c d _ ih =>
    rw [List.cons_append, List.cons_append, List.append_assoc]
    refine .cons a.span (.append ?_ (c.spans.append (.cons d.span ih)))
    rcases b.2 with rfl | b
    · exact .nil
    · exact b.spans
  | node a _ _ c _ ih1 ih2 =>
    rw [List.cons_append]
    exact .cons a.span (ih1.append (.cons c.span ih2))

theorem Sections.spans {b u u' : Nat} {es : List Event} (h : Sections src b u u' lo es hi) : SpansOk src es := by
  induction h with
  | nil => exact .nil
  | cons h1 h2 _ _ _ h6 h7 _ h9 _ ih1 ih2 =>
    refine .append (.append (.append (.append h1.forest.spans (.cons h2.span h6.spans)) h7.spans) ih1) (.cons h9.span ih2)

/-! ## Order -/

/-- The spans of the main events. -/
def mainSpans (K : List Event) : List Span := (mainEvents false K).map (·.span)

theorem orderedFrom_mono {lo lo' : Nat} {l : List Span} (h : orderedFrom lo l) (h1 : lo' ≤ lo) : orderedFrom lo' l := by
  cases l with
  | nil => trivial
  | cons s l => exact ⟨Nat.le_trans h1 h.1, h.2⟩

def Event.isMain (e : Event) : Bool :=
  match e.kind with
  | .stale => false
  | .enter (.leaf .caption) => false
  | .exit (.leaf .caption) => false
  | _ => true

theorem main_cons {e : Event} {K : List Event} (h : e.isMain = true) : mainSpans (e :: K) = e.span :: mainSpans K := by
  unfold mainSpans
  rw [mainEvents]
  unfold Event.isMain at h
  split at h <;> simp_all

theorem main_stale {e : Event} {K : List Event} (h : e.kind = .stale) : mainSpans (e :: K) = mainSpans K := by
  unfold mainSpans
  rw [mainEvents]
  simp only [h]

theorem ord_cons {e : Event} {K : List Event} (h : e.isMain = true) (hl : lo ≤ e.span.start) (hs : e.span.start ≤ e.span.stop)
    (hK : orderedFrom e.span.stop (mainSpans K)) : orderedFrom lo (mainSpans (e :: K)) := by
  rw [main_cons h]
  exact ⟨hl, hs, hK⟩

theorem isMain_enter {e : Event} {n : Node} (h : e.kind = .enter n) (hn : n ≠ .leaf .caption) : e.isMain = true := by
  unfold Event.isMain
  rw [h]
  split <;> simp_all

theorem isMain_exit {e : Event} {n : Node} (h : e.kind = .exit n) (hn : n ≠ .leaf .caption) : e.isMain = true := by
  unfold Event.isMain
  rw [h]
  split <;> simp_all

theorem ord_inl {fed : Bool} {es : List Event} (h : InlChain src fed lo es hi) {K : List Event} (hK : orderedFrom hi (mainSpans K)) :
    orderedFrom lo (mainSpans (es ++ K)) := by
  induction h with
  | nil h => exact orderedFrom_mono hK h
  | cons k s l _ _ ih => exact ord_cons (by unfold Event.isMain; rw [k]) l s.le (ih hK)

theorem ord_leaf {l : Leaf} {e x : Event} {inl : List Event} (hl : l ≠ .caption) (he : Enters src lo e (.leaf l))
    (hx : Exits src x (.leaf l)) {fed : Bool} (h : InlChain src fed e.span.stop inl x.span.start) {K : List Event}
    (hK : orderedFrom x.span.stop (mainSpans K)) : orderedFrom lo (mainSpans (e :: (inl ++ x :: K))) :=
  ord_cons (isMain_enter he.kind (by simpa using hl)) he.lo he.span.le
    (ord_inl h (ord_cons (isMain_exit hx.kind (by simpa using hl)) (Nat.le_refl _) hx.span.le hK))

theorem ord_cells {es : List Event} (h : Cells src lo es hi) {K : List Event} (hK : orderedFrom hi (mainSpans K)) :
    orderedFrom lo (mainSpans (es ++ K)) := by
  induction h with
  | nil h => exact orderedFrom_mono hK h
  | cons a k b c d e _ ih =>
    exact ord_leaf (inl := [_]) (by simp) a e (.cons (fed := true) k b c (fun _ => Or.inl rfl) (.nil d)) (ih hK)

theorem ord_rows {es : List Event} (h : Rows src lo es hi) {K : List Event} (hK : orderedFrom hi (mainSpans K)) :
    orderedFrom lo (mainSpans (es ++ K)) := by
  induction h with
  | nil h => exact orderedFrom_mono hK h
  | cons a b c _ ih =>
    simp only [List.cons_append, List.append_assoc]
    exact ord_cons (isMain_enter a.kind (by simp)) a.lo a.span.le
      (ord_cells b (ord_cons (isMain_exit c.kind (by simp)) (Nat.le_refl _) c.span.le (ih hK)))

theorem main_caption_inl {fed : Bool} {es : List Event} (h : InlChain src fed lo es hi) (K : List Event) :
    mainEvents true (es ++ K) = mainEvents true K := by
  induction h with
  | nil => rfl
  | cons k _ _ _ _ ih =>
    rw [List.cons_append, mainEvents]
    simp only [k]
    simpa using ih

theorem main_caption {es : List Event} (h : LeafSeg src .caption lo es hi) (K : List Event) : mainSpans (es ++ K) = mainSpans K := by
  cases h with
  | mk a b c d =>
    unfold mainSpans
    simp only [List.cons_append, List.append_assoc, List.nil_append]
    rw [mainEvents]
    simp only [a.kind]
    rw [main_caption_inl b, mainEvents]
    simp only [c.kind]

theorem ord_forest {cx : Cx} {es : List Event} (h : Forest src cx lo es hi) {K : List Event} (hK : orderedFrom hi (mainSpans K)) :
    orderedFrom lo (mainSpans (es ++ K)) := by
  induction h generalizing K with
  | nil h => exact orderedFrom_mono hK h
  | atom k s _ l _ ih => exact ord_cons (by unfold Event.isMain; rw [k]) l s.le (ih hK)
  | leaf a b c d _ ih =>
    simp only [List.cons_append, List.append_assoc]
    refine ord_leaf ?_ a d c (ih hK)
    rintro rfl
    exact b
  | term h1 h2 _ a b c _ ih =>
    simp only [List.cons_append, List.append_assoc]
    rw [main_stale h1, main_stale h2.1]
    exact ord_leaf (by simp) a c b (ih hK)
  | table a b c d _ ih =>
    simp only [List.cons_append, List.append_assoc]
    refine ord_cons (isMain_enter a.kind (by simp)) a.lo a.span.le ?_
    have := ord_rows c (ord_cons (isMain_exit d.kind (by simp)) (Nat.le_refl _) d.span.le (ih hK))
    rcases b.2 with rfl | b
    · exact this
    · rw [main_caption b]; exact this
  | node a _ _ c _ ih1 ih2 =>
    simp only [List.cons_append, List.append_assoc]
    exact ord_cons (isMain_enter a.kind (by simp)) a.lo a.span.le
      (ih1 (ord_cons (isMain_exit c.kind (by simp)) (Nat.le_refl _) c.span.le (ih2 hK)))

theorem ord_sections {b u u' : Nat} {es : List Event} (h : Sections src b u u' lo es hi) {K : List Event}
    (hK : orderedFrom hi (mainSpans K)) : orderedFrom lo (mainSpans (es ++ K)) := by
  induction h generalizing K with
  | nil h => exact orderedFrom_mono hK h
  | cons h1 h2 _ _ _ h6 h7 _ h9 _ ih1 ih2 =>
    simp only [List.cons_append, List.append_assoc]
    refine ord_forest h1.forest (ord_cons (isMain_enter h2.kind (by simp)) h2.lo h2.span.le ?_)
    cases h6 with
    | mk a b c d =>
      simp only [List.cons_append, List.append_assoc, List.nil_append]
      refine ord_leaf (by simp) a c b (orderedFrom_mono ?_ d)
      exact ord_forest h7 (ih1 (ord_cons (isMain_exit h9.kind (by simp)) (Nat.le_refl _) h9.span.le (ih2 hK)))

end
end Jotdown.Block
