import Verif.Proofs.Shape
import Verif.Proofs.Ids
/-! # Ids of headings in the events: helper lemmas -/
namespace Jotdown
open Jotdown

/-! ## Starts of headings increase -/

/-- The event refers to the heading at `pos`. -/
def refersTo (e : Block.Event) (pos : Nat) : Prop :=
  (∃ l hs, e.kind = .enter (.leaf (.heading l hs pos)) ∨ e.kind = .exit (.leaf (.heading l hs pos))) ∨
  e.kind = .enter (.container (.section pos)) ∨ e.kind = .exit (.container (.section pos))

structure HdOk (lo : Nat) (es : List Block.Event) (hi : Nat) : Prop where
  sorted : (headingStarts es).Pairwise (· < ·)
  range : ∀ s ∈ headingStarts es, lo ≤ s ∧ s < hi
  refs : ∀ e ∈ es, ∀ pos, refersTo e pos → ∃ s ∈ headingStarts es, pos = s % 4294967296
  own : ∀ e ∈ es, ∀ l hs pos, e.kind = .enter (.leaf (.heading l hs pos)) → pos = e.span.start % 4294967296

theorem headingStarts_append (a b : List Block.Event) : headingStarts (a ++ b) = headingStarts a ++ headingStarts b := by
  simp [headingStarts]

/-- The event has nothing to do with headings. -/
def Plain (e : Block.Event) : Prop :=
  (∀ l hs pos, e.kind ≠ .enter (.leaf (.heading l hs pos)) ∧ e.kind ≠ .exit (.leaf (.heading l hs pos))) ∧
  ∀ pos, e.kind ≠ .enter (.container (.section pos)) ∧ e.kind ≠ .exit (.container (.section pos))

theorem Plain.refs {e : Block.Event} (h : Plain e) (pos : Nat) : ¬ refersTo e pos := by
  rintro (⟨l, hs, h1 | h1⟩ | h1 | h1)
  · exact (h.1 _ _ _).1 h1
  · exact (h.1 _ _ _).2 h1
  · exact (h.2 _).1 h1
  · exact (h.2 _).2 h1

theorem Plain.starts {e : Block.Event} (h : Plain e) (es : List Block.Event) : headingStarts (e :: es) = headingStarts es := by
  simp only [headingStarts, List.filterMap_cons]
  cases hk : e.kind with
  | enter n =>
    cases n with
    | container c => rfl
    | leaf l => cases l with
      | heading a b c => exact ((h.1 a b c).1 hk).elim
      | _ => rfl
  | _ => rfl

variable {src : Bytes} {lo mid hi : Nat}

theorem HdOk.append {a b : List Block.Event} (h : HdOk lo a mid) (h2 : HdOk mid b hi) (h3 : lo ≤ mid) (h4 : mid ≤ hi) : HdOk lo (a ++ b) hi := by
  refine ⟨?_, ?_, ?_, fun e he => (List.mem_append.1 he).elim (h.own e) (h2.own e)⟩
  · rw [headingStarts_append, List.pairwise_append]
    refine ⟨h.sorted, h2.sorted, fun x hx y hy => ?_⟩
    have := h.range x hx
    have := h2.range y hy
    omega
  · intro s hs
    rw [headingStarts_append, List.mem_append] at hs
    rcases hs with hs | hs
    · have := h.range s hs; omega
    · have := h2.range s hs; omega
  · intro e he pos hp
    rw [headingStarts_append]
    rcases List.mem_append.1 he with he | he
    · obtain ⟨s, h5, h6⟩ := h.refs e he pos hp
      exact ⟨s, by simp [h5], h6⟩
    · obtain ⟨s, h5, h6⟩ := h2.refs e he pos hp
      exact ⟨s, by simp [h5], h6⟩

theorem HdOk.mono {lo' hi' : Nat} {a : List Block.Event} (h : HdOk lo a hi) (h1 : lo' ≤ lo) (h2 : hi ≤ hi') : HdOk lo' a hi' :=
  ⟨h.sorted, fun s hs => by have := h.range s hs; omega, h.refs, h.own⟩

theorem HdOk.plain {a : List Block.Event} (h : ∀ e ∈ a, Plain e) : HdOk lo a hi := by
  have h0 : headingStarts a = [] := by
    induction a with
    | nil => rfl
    | cons e a ih => rw [(h e (by simp)).starts, ih (fun e he => h e (by simp [he]))]
  refine ⟨by rw [h0]; simp, by rw [h0]; simp, fun e he pos hp => ((h e he).refs pos hp).elim, fun e he l hs pos hp => (((h e he).1 _ _ _).1 hp).elim⟩

theorem HdOk.cons {e : Block.Event} {a : List Block.Event} (h : Plain e) (h2 : HdOk lo a hi) : HdOk lo (e :: a) hi := by
  refine ⟨by rw [h.starts]; exact h2.sorted, by rw [h.starts]; exact h2.range, ?_, ?_⟩
  rotate_left
  · intro e' he l hs pos hp
    rcases List.mem_cons.1 he with rfl | he
    · exact ((h.1 _ _ _).1 hp).elim
    · exact h2.own e' he l hs pos hp
  intro e' he pos hp
  rw [h.starts]
  rcases List.mem_cons.1 he with rfl | he
  · exact (h.refs pos hp).elim
  · exact h2.refs e' he pos hp

theorem plain_kind {e : Block.Event} (h : e.kind = .inline ∨ e.kind = .stale ∨ ∃ a, e.kind = .atom a) : Plain e := by
  rcases h with h | h | ⟨a, h⟩ <;> simp [Plain, h]

theorem plain_leaf {e : Block.Event} {l : Block.Leaf} (hl : ∀ a b c, l ≠ .heading a b c) (h : e.kind = .enter (.leaf l) ∨ e.kind = .exit (.leaf l)) :
    Plain e := by
  rcases h with h | h <;> simp [Plain, h] <;> exact fun a => ⟨hl a false, hl a true⟩

theorem plain_cont {e : Block.Event} {c : Block.Container} (hl : ∀ a, c ≠ .section a) (h : e.kind = .enter (.container c) ∨ e.kind = .exit (.container c)) :
    Plain e := by
  rcases h with h | h <;> simp [Plain, h] <;> exact hl

open Block in
theorem hd_leaf {l : Leaf} {e x : Block.Event} {inl : List Block.Event} {fed : Bool} (he : Enters src lo e (.leaf l))
    (hi' : InlChain src fed e.span.stop inl x.span.start) (hx : Exits src x (.leaf l)) : HdOk lo (e :: inl ++ [x]) x.span.stop := by
  have hin : ∀ a ∈ inl, Plain a := fun a ha => plain_kind (Or.inl (hi'.inline a ha))
  by_cases hl : ∃ a b c, l = .heading a b c
  · obtain ⟨a, b, c, rfl⟩ := hl
    have hn : headingStarts (e :: inl ++ [x]) = [e.span.start] := by
      have h1 : headingStarts inl = [] := by
        clear hi'
        induction inl with
        | nil => rfl
        | cons y ys ih => rw [(hin y (by simp)).starts, ih (fun e he => hin e (by simp [he]))]
      rw [List.cons_append, show e :: (inl ++ [x]) = [e] ++ (inl ++ [x]) from rfl, headingStarts_append, headingStarts_append, h1]
      simp [headingStarts, he.kind, hx.kind]
    have hown : ∀ y ∈ e :: inl ++ [x], ∀ l hs pos, y.kind = .enter (.leaf (.heading l hs pos)) → pos = y.span.start % 4294967296 := by
      intro y hy l hs pos hp
      have hc := he.node.2
      rw [List.cons_append] at hy
      rcases List.mem_cons.1 hy with rfl | hy
      · rw [he.kind] at hp; simp at hp; omega
      · rcases List.mem_append.1 hy with hy | hy
        · exact (((hin _ hy).1 _ _ _).1 hp).elim
        · simp at hy; subst hy; rw [hx.kind] at hp; simp at hp
    refine ⟨by rw [hn]; simp, ?_, ?_, hown⟩
    · rw [hn]
      intro s hs
      have := he.lo
      have := he.node.1
      have := hi'.le
      have := hx.span.le
      simp at hs
      omega
    · rw [hn]
      intro e' he' pos hp
      refine ⟨e.span.start, by simp, ?_⟩
      have hc := he.node.2
      rw [List.cons_append] at he'
      rcases List.mem_cons.1 he' with rfl | he'
      · rcases hp with ⟨l, hs, h1 | h1⟩ | h1 | h1 <;> rw [he.kind] at h1 <;> simp at h1
        omega
      · rcases List.mem_append.1 he' with he' | he'
        · exact ((hin _ he').refs pos hp).elim
        · simp at he'
          subst he'
          rcases hp with ⟨l, hs, h1 | h1⟩ | h1 | h1 <;> rw [hx.kind] at h1 <;> simp at h1
          omega
  · have hl' : ∀ a b c, l ≠ .heading a b c := fun a b c h => hl ⟨a, b, c, h⟩
    refine .plain ?_
    intro y hy
    rw [List.cons_append] at hy
    rcases List.mem_cons.1 hy with rfl | hy
    · exact plain_leaf hl' (Or.inl he.kind)
    · rcases List.mem_append.1 hy with hy | hy
      · exact hin y hy
      · simp at hy
        subst hy
        exact plain_leaf hl' (Or.inr hx.kind)

open Block in
theorem hd_cells {es : List Block.Event} (h : Cells src lo es hi) : ∀ e ∈ es, Plain e := by
  induction h with
  | nil => simp
  | cons a k b c d e _ ih =>
    intro y hy
    simp only [List.mem_cons] at hy
    rcases hy with rfl | rfl | rfl | hy
    · exact plain_leaf (by simp) (Or.inl a.kind)
    · exact plain_kind (Or.inl k)
    · exact plain_leaf (by simp) (Or.inr e.kind)
    · exact ih y hy

open Block in
theorem hd_rows {es : List Block.Event} (h : Rows src lo es hi) : ∀ e ∈ es, Plain e := by
  induction h with
  | nil => simp
  | cons a b c _ ih =>
    intro y hy
    simp only [List.cons_append, List.mem_cons, List.mem_append] at hy
    rcases hy with rfl | hy | rfl | hy
    · exact plain_cont (by simp) (Or.inl a.kind)
    · exact hd_cells b y hy
    · exact plain_cont (by simp) (Or.inr c.kind)
    · exact ih y hy

open Block in
theorem hd_forest {cx : Cx} {es : List Block.Event} (h : Forest src cx lo es hi) : HdOk lo es hi := by
  induction h with
  | nil => exact .plain (by simp)
  | atom k s _ l _ ih => exact .cons (plain_kind (Or.inr (Or.inr ⟨_, k⟩))) (ih.mono (by have := s.le; omega) (Nat.le_refl _))
  | leaf a _ b c g ih =>
    have := (hd_leaf a b c).append ih (by have := a.lo; have := a.span.le; have := b.le; have := c.span.le; omega) g.le
    simpa using this
  | term h1 h2 _ a b c g ih =>
    have := (hd_leaf a b c).append ih (by have := a.lo; have := a.span.le; have := b.le; have := c.span.le; omega) g.le
    have := HdOk.cons (plain_kind (Or.inr (Or.inl h1))) (HdOk.cons (plain_kind (Or.inr (Or.inl h2.1))) this)
    simpa using this
  | @table cx lo hi e cap R x G a b c d g ih =>
    have h1 : HdOk lo (e :: cap ++ R ++ [x]) x.span.stop := by
      refine .plain ?_
      intro y hy
      simp only [List.cons_append, List.mem_cons, List.mem_append, List.append_assoc] at hy
      rcases hy with rfl | hy | hy | rfl | hy
      · exact plain_cont (by simp) (Or.inl a.kind)
      · rcases b.2 with rfl | b
        · simp at hy
        · cases b with
          | mk b1 b2 b3 b4 =>
            simp only [List.cons_append, List.mem_cons, List.mem_append] at hy
            rcases hy with rfl | hy | rfl | hy
            · exact plain_leaf (by simp) (Or.inl b1.kind)
            · exact plain_kind (Or.inl (b2.inline y hy))
            · exact plain_leaf (by simp) (Or.inr b3.kind)
            · simp at hy
      · exact hd_rows c y hy
      · exact plain_cont (by simp) (Or.inr d.kind)
      · simp at hy
    have := h1.append ih (by have := a.lo; have := a.span.le; have := c.le; have := d.span.le; omega) g.le
    simpa using this
  | @node cx lo hi e c F x G a b f d g ih1 ih2 =>
    have hs : ∀ a, c ≠ .section a := by
      intro a hc
      subst hc
      exact b.1
    have hl := a.lo
    have hl2 := a.span.le
    have hl3 := d.span.le
    have hl4 := f.le
    have h1 : HdOk lo (e :: F) x.span.start := .cons (plain_cont hs (Or.inl a.kind)) (ih1.mono (by omega) (Nat.le_refl _))
    have h2 : HdOk x.span.start (x :: G) hi := .cons (plain_cont hs (Or.inr d.kind)) (ih2.mono hl3 (Nat.le_refl _))
    have := h1.append h2 (by omega) (by have := g.le; omega)
    simpa using this

open Block in
theorem hd_sections {b u u' : Nat} {es : List Block.Event} (h : Sections src b u u' lo es hi) : HdOk lo es hi := by
  induction h with
  | nil => exact .plain (by simp)
  | @cons b u u' u'' lo m1 m2 m3 hi n pos A e H F S x R h1 h2 h3 h4 h5 h6 h7 h8 h9 h10 ih1 ih2 =>
    cases h6 with
    | @mk _ eh inl xh a1 a2 a3 a4 =>
    have l1 := h1.forest.le
    have l2 := h2.lo
    have l3 := h2.span.le
    have l4 := a1.lo
    have l5 := a1.span.le
    have l6 := a2.le
    have l7 := a3.span.le
    have l8 := h7.le
    have l9 := h8.le
    have l10 := h9.span.le
    have l11 := h10.le
    have hh := hd_leaf a1 a2 a3
    have hb := ((hh.mono (Nat.le_refl _) a4).append (hd_forest h7) (by omega) (by omega)).append ih1 (by omega) (by omega)
    have hmem : eh.span.start ∈ headingStarts (eh :: inl ++ [xh] ++ F ++ S) := by
      simp [headingStarts, a1.kind]
    have hpos : pos = eh.span.start % 4294967296 := a1.node.2.1
    have hst : headingStarts (e :: (eh :: inl ++ [xh] ++ F ++ S) ++ [x]) = headingStarts (eh :: inl ++ [xh] ++ F ++ S) := by
      rw [headingStarts_append]
      simp [headingStarts, h2.kind, h9.kind]
    have hmidd : HdOk m1 (e :: (eh :: inl ++ [xh] ++ F ++ S) ++ [x]) x.span.stop := by
      refine ⟨?_, ?_, ?_, ?_⟩
      rotate_right
      · intro e' he' l hs p hp
        rcases List.mem_append.1 he' with he' | he'
        · rcases List.mem_cons.1 he' with rfl | he'
          · rw [h2.kind] at hp; simp at hp
          · exact hb.own e' he' l hs p hp
        · simp at he'; subst he'; rw [h9.kind] at hp; simp at hp
      · rw [hst]; exact hb.sorted
      · rw [hst]; intro s hs; have := hb.range s hs; omega
      · rw [hst]
        intro e' he' p hp
        rcases List.mem_append.1 he' with he' | he'
        · rcases List.mem_cons.1 he' with rfl | he'
          · refine ⟨_, hmem, ?_⟩
            rcases hp with ⟨l, hs, q | q⟩ | q | q <;> rw [h2.kind] at q <;> simp at q
            omega
          · exact hb.refs e' he' p hp
        · simp at he'
          subst he'
          refine ⟨_, hmem, ?_⟩
          rcases hp with ⟨l, hs, q | q⟩ | q | q <;> rw [h9.kind] at q <;> simp at q
          omega
    have := ((hd_forest h1.forest).append hmidd (by omega) (by omega)).append ih2 (by omega) (by omega)
    simpa using this

open Block in
theorem hd_parse {evs : List Block.Event} (hu : Utf8 src) (h : parse src = .ok evs) : HdOk 0 evs src.length := by
  obtain ⟨F, S, m, u, he, hF, hS⟩ := ((parse_shape hu).of_ok h).ev
  have h1 := (hd_forest hF).append (hd_sections hS) (by have := hF.le; omega) (by have := hS.le; omega)
  have h2 : HdOk src.length [⟨.exit (.container .document), ⟨src.length, src.length⟩⟩] src.length :=
    .plain (by intro e h; simp at h; subst h; exact plain_cont (by simp) (Or.inr rfl))
  have := HdOk.cons (e := ⟨.enter (.container .document), ⟨0, 0⟩⟩) (plain_cont (by simp) (Or.inl rfl)) (h1.append h2 (by omega) (by omega))
  rw [he]
  simpa using this

end Jotdown
