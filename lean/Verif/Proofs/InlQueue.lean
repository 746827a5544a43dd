import Verif.Model.Inline
import Verif.Proofs.Forest
import Verif.Spec.Notation
/-! # The queue of inline events -/
namespace Jotdown.Inline
open Jotdown

/-- The span of the event starts at `lo` or later. -/
def Fits (lo : Nat) (e : Event) : Prop := lo ≤ e.span.start ∧ e.span.start ≤ e.span.stop

theorem Fits.mono {lo lo' : Nat} {e : Event} (h : Fits lo e) (h1 : lo' ≤ lo) : Fits lo' e := ⟨by have := h.1; omega, h.2⟩
theorem Fits.le {lo : Nat} {e : Event} (h : Fits lo e) : lo ≤ e.span.stop := by have := h.1; have := h.2; omega

/-- Events that neither open nor close anything. -/
def Plain (e : Event) : Prop := e.kind = .str ∨ (e.kind = .placeholder ∧ e.span.start = e.span.stop) ∨ ∃ a, e.kind = .atom a

/-- A placeholder, with an empty span. -/
def Ph (e : Event) : Prop := e.kind = .placeholder ∧ e.span.start = e.span.stop

/-- The text that an event adds to the text of a link. -/
def evText (src : Bytes) (e : Event) : Bytes :=
  match e.kind with
  | .str => Block.sliceOf src e.span
  | .atom .softbreak => b! " "
  | .atom .hardbreak => b! " "
  | .atom .escape => []
  | .atom _ => Block.sliceOf src e.span
  | _ => []

/-- The text of a link with the content `es`. -/
def linkText (src : Bytes) (es : List Event) : Bytes := (es.map (evText src)).flatten

@[simp] theorem linkText_nil {src : Bytes} : linkText src [] = [] := rfl
@[simp] theorem linkText_cons {src : Bytes} {e : Event} {es : List Event} : linkText src (e :: es) = evText src e ++ linkText src es := by simp [linkText]
@[simp] theorem linkText_append {src : Bytes} {a b : List Event} : linkText src (a ++ b) = linkText src a ++ linkText src b := by simp [linkText]

/-! ## Notation -/

open Jotdown.Notation

/-- The source, the stored strings, the stored attributes, and the current line and the lines ahead. -/
structure Notes where
  src : Bytes
  cow : List Bytes
  ats : List Attr.Attributes
  lines : List Span

structure Notes.Le (N M : Notes) : Prop where
  src : M.src = N.src
  cow : ∀ (i : Nat) v, N.cow[i]? = some v → M.cow[i]? = some v
  ats : ∀ (i : Nat) v, N.ats[i]? = some v → M.ats[i]? = some v

theorem Notes.Le.rfl {N : Notes} : N.Le N := ⟨_root_.rfl, fun _ _ h => h, fun _ _ h => h⟩

/-- The container may be written with `a` before and `b` after the content `t`. -/
def Delim (src : Bytes) (cow : List Bytes) (w : Bytes) : Container → Bytes → Bytes → Bytes → Prop
  | .span, a, _, b => (Bracket a ∧ b = b! "]") ∨ (a = [] ∧ b = [])
  | .subscript, a, _, b => Around (c! '~') a b
  | .superscript, a, _, b => Around (c! '^') a b
  | .insert, a, _, b => Braced (c! '+') a b
  | .delete, a, _, b => Braced (c! '-') a b
  | .emphasis, a, _, b => Around (c! '_') a b
  | .strong, a, _, b => Around (c! '*') a b
  | .mark, a, _, b => Braced (c! '=') a b
  | .verbatim, a, t, b => Ticked [] a t b
  | .rawFormat f, a, t, b => RawTicked f a t b
  | .inlineMath, a, t, b => Ticked (b! "$") a t b
  | .displayMath, a, t, b => Ticked (b! "$$") a t b
  | .referenceLink i, a, _, b => Bracket a ∧ ∃ u, cow[i]? = some u ∧ Label src w b u
  | .referenceImage i, a, _, b => a = b! "![" ∧ ∃ u, cow[i]? = some u ∧ Label src w b u
  | .inlineLink i, a, _, b => Bracket a ∧ ∃ u, cow[i]? = some u ∧ Target src (b! "](") (b! ")") b u
  | .inlineImage i, a, _, b => a = b! "![" ∧ ∃ u, cow[i]? = some u ∧ Target src (b! "](") (b! ")") b u
  | .autolink u, a, t, b => a = b! "<" ∧ b = b! ">" ∧ u = t ∧ Address t

theorem Delim.mono {N M : Notes} (h : N.Le M) {w : Bytes} {k : Container} {a t b : Bytes} (hd : Delim N.src N.cow w k a t b) : Delim M.src M.cow w k a t b := by
  rw [h.src]
  cases k <;> first
    | exact hd
    | (obtain ⟨h1, u, h2, h3⟩ := hd; exact ⟨h1, u, h.cow _ _ h2, h3⟩)

/-- The container with the attributes `own` is written with the start at `o` and the end at `x`; the text in it is `w`. -/
def Ends (N : Notes) (k : Container) (o x : Span) (own : Attr.Attributes) (w : Bytes) : Prop :=
  ∃ b s, Block.sliceOf N.src x = b ++ s ∧ Delim N.src N.cow w k (Block.sliceOf N.src o) (Block.sliceOf N.src ⟨o.stop, x.start⟩) b ∧ WrittenAttrs s own

theorem Ends.mono {N M : Notes} (h : N.Le M) {k : Container} {o x : Span} {own : Attr.Attributes} {w : Bytes} (he : Ends N k o x own w) : Ends M k o x own w := by
  obtain ⟨b, s, h1, h2, h3⟩ := he
  refine ⟨b, s, by rw [h.src]; exact h1, ?_, h3⟩
  have := h2.mono h
  rw [h.src] at this ⊢
  exact this

/-- The attributes stored at `i` are written at `a`. -/
def Written (N : Notes) (i : Nat) (a : Span) : Prop := ∃ own, N.ats[i]? = some own ∧ WrittenAttrs (Block.sliceOf N.src a) own

theorem Written.mono {N M : Notes} (h : N.Le M) {i : Nat} {a : Span} (hw : Written N i a) : Written M i a := by
  obtain ⟨own, h1, h2⟩ := hw
  exact ⟨own, h.ats _ _ h1, by rw [h.src]; exact h2⟩

/-- Text of an opener. -/
def OpenText : Opener → Bytes → Prop
  | .span .image, t => t = b! "!["
  | .span .general, t => Bracket t
  | .strong .bi, t => t = b! "*"
  | .strong .uni, t => t = b! "{*"
  | .emphasis .bi, t => t = b! "_"
  | .emphasis .uni, t => t = b! "{_"
  | .superscript .bi, t => t = b! "^"
  | .superscript .uni, t => t = b! "{^"
  | .subscript .bi, t => t = b! "~"
  | .subscript .uni, t => t = b! "{~"
  | .mark, t => t = b! "{="
  | .delete, t => t = b! "{-"
  | .insert, t => t = b! "{+"
  | .singleQuoted, t => t = b! "'" ∨ t = b! "{'"
  | .doubleQuoted, t => t = b! "\"" ∨ t = b! "{\""
  | .link _ true _, t => t = b! "!["
  | .link _ false _, t => Bracket t

/-- A line after the event starts after a line break. -/
def LineOk (N : Notes) (y : Span) : Prop :=
  ∀ l ∈ N.lines, l.start < l.stop → l.start ≤ y.start ∨ c! '\n' ∈ Block.sliceOf N.src ⟨y.stop, l.start⟩ ∨ Adjacent N.src

/-- Complete events, in order between the positions. -/
inductive Bal (N : Notes) : Nat → List Event → Nat → Prop
  | nil {lo hi} : lo ≤ hi → Bal N lo [] hi
  | leaf {lo hi e es} : Plain e → Fits lo e → Bal N e.span.stop es hi → Bal N lo (e :: es) hi
  | word {lo hi a e es i} : a.kind = .attributes false i → e.kind = .empty → e.span = a.span → Fits lo a → Written N i a.span →
      Bal N a.span.stop es hi → Bal N lo (a :: e :: es) hi
  | node {lo hi o F x c es} : o.kind = .enter c → x.kind = .exit c → Fits lo o → Bal N o.span.stop F x.span.start →
      x.span.start ≤ x.span.stop → Ends N c o.span x.span [] (linkText N.src F) → Bal N x.span.stop es hi → Bal N lo (o :: (F ++ x :: es)) hi
  | attr {lo hi a o F x c es i own} : a.kind = .attributes true i → o.kind = .enter c → x.kind = .exit c → Fits lo o →
      Bal N o.span.stop F x.span.start → x.span.start ≤ x.span.stop → N.ats[i]? = some own → Ends N c o.span x.span own (linkText N.src F) →
      Bal N x.span.stop es hi → Bal N lo (a :: o :: (F ++ x :: es)) hi

theorem Bal.mono {N M : Notes} (hm : N.Le M) {lo hi : Nat} {es : List Event} (h : Bal N lo es hi) : Bal M lo es hi := by
  induction h with
  | nil h => exact .nil h
  | leaf a b _ ih => exact .leaf a b ih
  | word a b c d e _ ih => exact .word a b c d (e.mono hm) ih
  | node a b c d e f _ ih1 ih2 => exact .node a b c ih1 e (by rw [hm.src]; exact f.mono hm) ih2
  | attr a b c d e f g h _ ih1 ih2 => exact .attr a b c d ih1 f (hm.ats _ _ g) (by rw [hm.src]; exact h.mono hm) ih2

variable {N : Notes}

theorem Bal.le {lo hi : Nat} {es : List Event} (h : Bal N lo es hi) : lo ≤ hi := by
  induction h with
  | nil h => exact h
  | leaf _ h _ ih => have := h.le; omega
  | word _ _ _ h _ _ ih => have := h.le; omega
  | node _ _ h _ h2 _ _ ih1 ih2 => have := h.le; omega
  | attr _ _ _ h _ h2 _ _ _ ih1 ih2 => have := h.le; omega

theorem Bal.lo {lo lo' hi : Nat} {es : List Event} (h : Bal N lo es hi) (h1 : lo' ≤ lo) : Bal N lo' es hi := by
  cases h with
  | nil h => exact .nil (by omega)
  | leaf a b c => exact .leaf a (b.mono h1) c
  | word a b c d e f => exact .word a b c (d.mono h1) e f
  | node a b c d e f g => exact .node a b (c.mono h1) d e f g
  | attr a b c d e f g h i => exact .attr a b c (d.mono h1) e f g h i

theorem Bal.append {lo mid hi : Nat} {a b : List Event} (h : Bal N lo a mid) (h2 : Bal N mid b hi) : Bal N lo (a ++ b) hi := by
  induction h with
  | nil h => exact h2.lo h
  | leaf p q _ ih => exact .leaf p q (ih h2)
  | word p q r s t _ ih => exact .word p q r s t (ih h2)
  | node p q r s t u _ _ ih =>
    have := Bal.node p q r s t u (ih h2)
    simpa using this
  | attr p q r s t u v w _ _ ih =>
    have := Bal.attr p q r s t u v w (ih h2)
    simpa using this

theorem Bal.hi {lo hi hi' : Nat} {es : List Event} (h : Bal N lo es hi) (h1 : hi ≤ hi') : Bal N lo es hi' := by
  have := h.append (.nil h1)
  simpa using this

theorem Bal.one {lo hi : Nat} {e : Event} (h : Plain e) (h1 : Fits lo e) (h2 : e.span.stop ≤ hi) : Bal N lo [e] hi :=
  .leaf h h1 (.nil h2)

/-- The bracket or parenthesis after the text of a possible link. -/
structure LinkText (N : Notes) (img inl : Bool) (op x y : Event) : Prop where
  top : OpenText (.link 0 img inl) (Block.sliceOf N.src op.span)
  tx : Block.sliceOf N.src x.span = b! "]"
  ty : Block.sliceOf N.src y.span = if inl then b! "(" else b! "["
  adj : x.span.stop = y.span.start
  line : LineOk N y.span

/-- The queue with the openers, innermost first. -/
inductive Lay (N : Notes) : List (Opener × Nat) → Nat → List Event → Nat → Prop
  | base {lo es hi} : Bal N lo es hi → Lay N [] lo es hi
  | norm {o os lo A m ph op B hi n} : (∀ a b c, o ≠ .link a b c) → n = A.length → Lay N os lo A m → Ph ph →
      Fits m ph → op.kind = openerKind o → Fits ph.span.stop op → OpenText o (Block.sliceOf N.src op.span) → Bal N op.span.stop B hi →
      Lay N ((o, n) :: os) lo (A ++ ph :: op :: B) hi
  | link {os lo A m ph op B1 x y B2 hi img inl e n} : e = A.length + 1 → n = A.length + 2 + B1.length + 1 →
      Lay N os lo A m → Ph ph → Fits m ph → op.kind = .str →
      Fits ph.span.stop op → Bal N op.span.stop B1 x.span.start → x.kind = .str → x.span.start ≤ x.span.stop →
      y.kind = .str → Fits x.span.stop y → LinkText N img inl op x y → Bal N y.span.stop B2 hi →
      Lay N ((.link e img inl, n) :: os) lo (A ++ ph :: op :: (B1 ++ x :: y :: B2)) hi

theorem openerKind_plain {e : Event} (o : Opener) (h : e.kind = openerKind o) : Plain e := by
  cases o <;> simp [openerKind] at h <;> simp [h, Plain]

theorem Lay.le {os : List (Opener × Nat)} {lo hi : Nat} {es : List Event} (h : Lay N os lo es hi) : lo ≤ hi := by
  induction h with
  | base h => exact h.le
  | norm _ _ _ _ a _ b _ c ih => have := a.le; have := b.le; have := c.le; omega
  | link _ _ _ _ a _ b c _ d _ e _ f ih => have := a.le; have := b.le; have := c.le; have := e.le; have := f.le; omega

theorem Lay.append {os : List (Opener × Nat)} {lo mid hi : Nat} {a b : List Event} (h : Lay N os lo a mid)
    (h2 : Bal N mid b hi) : Lay N os lo (a ++ b) hi := by
  cases h with
  | base h => exact .base (h.append h2)
  | norm p n q r s t u w v =>
    have := Lay.norm p n q r s t u w (v.append h2)
    simpa using this
  | @link _ _ _ _ _ _ _ _ _ _ _ img inl _ _ p1 p2 p3 p4 p5 p6 p7 p8 p9 p10 p11 p12 pl p13 =>
    have := Lay.link p1 p2 p3 p4 p5 p6 p7 p8 p9 p10 p11 p12 pl (p13.append h2)
    simpa using this

theorem Lay.hi {os : List (Opener × Nat)} {lo hi hi' : Nat} {es : List Event} (h : Lay N os lo es hi) (h1 : hi ≤ hi') :
    Lay N os lo es hi' := by
  have := h.append (.nil h1)
  simpa using this

theorem Lay.one {os : List (Opener × Nat)} {lo mid hi : Nat} {A : List Event} {e : Event} (h : Lay N os lo A mid)
    (hp : Plain e) (h1 : Fits mid e) (h2 : e.span.stop ≤ hi) : Lay N os lo (A ++ [e]) hi :=
  h.append (.one hp h1 h2)

/-- An opener that is not closed becomes text. -/
theorem Lay.forget {o : Opener × Nat} {os : List (Opener × Nat)} {lo hi : Nat} {es : List Event} (h : Lay N (o :: os) lo es hi) :
    Lay N os lo es hi := by
  cases h with
  | norm p n q r s t u w v =>
    exact q.append (.leaf (.inr (.inl r)) s (.leaf (openerKind_plain _ t) u v))
  | link p1 p2 p3 p4 p5 p6 p7 p8 p9 p10 p11 p12 pl p13 =>
    refine p3.append (.leaf (.inr (.inl p4)) p5 (.leaf (.inl p6) p7 (p8.append ?_)))
    exact .leaf (.inl p9) ⟨Nat.le_refl _, p10⟩ (.leaf (.inl p11) p12 p13)

theorem Lay.bal {os : List (Opener × Nat)} {lo hi : Nat} {es : List Event} (h : Lay N os lo es hi) : Bal N lo es hi := by
  induction os with
  | nil => cases h with | base h => exact h
  | cons o os ih => exact ih h.forget

theorem Lay.find {os : List (Opener × Nat)} {lo hi : Nat} {es : List Event} (h : Lay N os lo es hi) {k : Lex.Kind}
    {o : Opener × Nat} {below : List (Opener × Nat)} (hf : findOpener k os = some (o, below)) :
    Lay N (o :: below) lo es hi ∧ o.1.closedBy k = true := by
  induction os with
  | nil => simp [findOpener] at hf
  | cons a os ih =>
    unfold findOpener at hf
    split at hf
    · rename_i hc
      simp only [Option.some.injEq, Prod.mk.injEq] at hf
      obtain ⟨rfl, rfl⟩ := hf
      exact ⟨h, hc⟩
    · exact ih h.forget hf

/-- Later notes, and other lines. -/
theorem Lay.notes {M : Notes} (hm : N.Le M) {os : List (Opener × Nat)} {lo hi : Nat} {es : List Event} (h : Lay N os lo es hi)
    (hy : ∀ y : Span, y.start ≤ y.stop → y.stop ≤ hi → (Block.sliceOf N.src y = b! "(" ∨ Block.sliceOf N.src y = b! "[") → LineOk N y → LineOk M y) : Lay M os lo es hi := by
  induction h with
  | base h => exact .base (h.mono hm)
  | @norm o os lo A m ph op B hi n p n' q r s t u w v ih =>
    refine .norm p n' (ih ?_) r s t u (by rw [hm.src]; exact w) (v.mono hm)
    intro y h1 h2
    have := s.le; have := u.le; have := v.le
    exact hy y h1 (by omega)
  | @link os lo A m ph op B1 x y B2 hi img inl e' n p1 p2 p3 p4 p5 p6 p7 p8 p9 p10 p11 p12 pl p13 ih =>
    refine .link p1 p2 (ih ?_) p4 p5 p6 p7 (p8.mono hm) p9 p10 p11 p12 ⟨by rw [hm.src]; exact pl.top, by rw [hm.src]; exact pl.tx, by rw [hm.src]; exact pl.ty, pl.adj, ?_⟩ (p13.mono hm)
    · intro y' h1 h2
      have := p5.le; have := p7.le; have := p8.le; have := p12.le; have := p13.le
      exact hy y' h1 (by omega)
    · have h13 := p13.le
      refine hy y.span p12.2 h13 ?_ pl.line
      have := pl.ty
      cases inl
      · exact .inr this
      · exact .inl this

theorem Lay.mono {M : Notes} (hm : N.Le M) (hl : M.lines = N.lines) {os : List (Opener × Nat)} {lo hi : Nat} {es : List Event} (h : Lay N os lo es hi) : Lay M os lo es hi := by
  refine h.notes hm ?_
  intro y _ _ _ h
  unfold LineOk at *
  rw [hl, hm.src]; exact h

/-- The last event may be shortened if it is a text. -/
theorem Bal.shrink {lo hi : Nat} {A : List Event} {e : Event} (h : Bal N lo (A ++ [e]) hi) (he : e.kind = .str) {b : Nat}
    (hb : e.span.start ≤ b) : Bal N lo (A ++ [⟨.str, ⟨e.span.start, b⟩⟩]) b := by
  generalize hes : A ++ [e] = es at h
  induction h generalizing A with
  | nil h => simp at hes
  | @leaf lo hi e' es p q r ih =>
    cases A with
    | nil =>
      simp at hes
      obtain ⟨rfl, rfl⟩ := hes
      exact .one (.inl rfl) ⟨q.1, hb⟩ (Nat.le_refl _)
    | cons a A =>
      simp at hes
      obtain ⟨rfl, rfl⟩ := hes
      exact .leaf p q (ih rfl)
  | @word lo hi a' e' es i p q r s w t ih =>
    cases A with
    | nil =>
      simp at hes
    | cons a A =>
      simp at hes
      obtain ⟨rfl, h2⟩ := hes
      cases A with
      | nil =>
        simp at h2
        obtain ⟨rfl, rfl⟩ := h2
        rw [he] at q; cases q
      | cons a A =>
        simp at h2
        obtain ⟨rfl, rfl⟩ := h2
        exact .word p q r s w (ih rfl)
  | @node lo hi o F x c es p q r s t w u ih1 ih2 =>
    cases A with
    | nil => simp at hes
    | cons a A =>
      simp at hes
      obtain ⟨rfl, h2⟩ := hes
      rcases List.eq_nil_or_concat es with rfl | ⟨es', z, rfl⟩
      · have h3 := List.append_inj_right' h2 rfl
        simp at h3
        subst h3
        rw [he] at q; cases q
      · rw [List.concat_eq_append] at *
        have h4 : A ++ [e] = (F ++ x :: es') ++ [z] := by simpa using h2
        have h3 := List.append_inj_right' h4 rfl
        have h5 := List.append_inj_left' h4 rfl
        simp at h3
        subst h3 h5
        have := Bal.node p q r s t w (ih2 rfl)
        simpa using this
  | @attr lo hi a' o F x c es i own p q r s t u w w2 v ih1 ih2 =>
    cases A with
    | nil => simp at hes
    | cons a A =>
      simp at hes
      obtain ⟨rfl, h2⟩ := hes
      cases A with
      | nil => simp at h2
      | cons a A =>
        simp at h2
        obtain ⟨rfl, h2⟩ := h2
        rcases List.eq_nil_or_concat es with rfl | ⟨es', z, rfl⟩
        · have h3 := List.append_inj_right' h2 rfl
          simp at h3
          subst h3
          rw [he] at r; cases r
        · rw [List.concat_eq_append] at *
          have h4 : A ++ [e] = (F ++ x :: es') ++ [z] := by simpa using h2
          have h3 := List.append_inj_right' h4 rfl
          have h5 := List.append_inj_left' h4 rfl
          simp at h3
          subst h3 h5
          have := Bal.attr p q r s t u w w2 (ih2 rfl)
          simpa using this

theorem concat_inj {α : Type} {a b : List α} {x y : α} (h : a ++ [x] = b ++ [y]) : a = b ∧ x = y := by
  have h1 := List.append_inj_left' h rfl
  have h2 := List.append_inj_right' h rfl
  simp at h2
  exact ⟨h1, h2⟩

/-- Nothing that opens a container ends with a dollar. -/
theorem OpenText.dollar {o : Opener} {t : Bytes} (h : OpenText o t) : t ≠ [] ∧ t.getLast? ≠ some (c! '$') := by
  cases o with
  | strong d => cases d <;> (cases h; decide)
  | emphasis d => cases d <;> (cases h; decide)
  | superscript d => cases d <;> (cases h; decide)
  | subscript d => cases d <;> (cases h; decide)
  | span d => cases d
              · cases h; decide
              · rcases h with h | h <;> (subst h; decide)
  | link e i l => cases i
                  · rcases h with h | h <;> (subst h; decide)
                  · cases h; decide
  | singleQuoted => rcases h with h | h <;> (subst h; decide)
  | doubleQuoted => rcases h with h | h <;> (subst h; decide)
  | mark => cases h; decide
  | delete => cases h; decide
  | insert => cases h; decide

/-- The last event may be shortened if it is a text ending with a dollar. -/
theorem Lay.shrink {os : List (Opener × Nat)} {lo hi : Nat} {A : List Event} {e : Event} (h : Lay N os lo (A ++ [e]) hi)
    (he : e.kind = .str) (hd : (Block.sliceOf N.src e.span).getLast? = some (c! '$')) {b : Nat} (hb : e.span.start ≤ b) :
    Lay N os lo (A ++ [⟨.str, ⟨e.span.start, b⟩⟩]) b := by
  generalize hes : A ++ [e] = es at h
  cases h with
  | base h => subst hes; exact .base (h.shrink he hb)
  | @norm o os lo A' m ph op B hi n p n q r s t u w v =>
    rcases List.eq_nil_or_concat B with rfl | ⟨B', z, rfl⟩
    · have h4 : A ++ [e] = (A' ++ [ph]) ++ [op] := by simpa using hes
      obtain ⟨rfl, rfl⟩ := concat_inj h4
      exact absurd hd w.dollar.2
    · rw [List.concat_eq_append] at *
      have h4 : A ++ [e] = (A' ++ ph :: op :: B') ++ [z] := by simpa using hes
      obtain ⟨rfl, rfl⟩ := concat_inj h4
      have := Lay.norm p n q r s t u w (v.shrink he hb)
      simpa using this
  | @link os lo A' m ph op B1 x y B2 hi img inl e' n p1 p2 p3 p4 p5 p6 p7 p8 p9 p10 p11 p12 pl p13 =>
    rcases List.eq_nil_or_concat B2 with rfl | ⟨B', z, rfl⟩
    · have h4 : A ++ [e] = (A' ++ ph :: op :: (B1 ++ [x])) ++ [y] := by simpa using hes
      obtain ⟨rfl, rfl⟩ := concat_inj h4
      rw [pl.ty] at hd
      cases inl <;> simp at hd
    · rw [List.concat_eq_append] at *
      have h4 : A ++ [e] = (A' ++ ph :: op :: (B1 ++ x :: y :: B')) ++ [z] := by simpa using hes
      obtain ⟨rfl, rfl⟩ := concat_inj h4
      have := Lay.link p1 p2 p3 p4 p5 p6 p7 p8 p9 p10 p11 p12 pl (p13.shrink he hb)
      simpa using this

/-- The opening of bracketed text. -/
def SpanOpen (t : Bytes) : Prop := Bracket t ∨ t = b! "!["

/-- A container that was just closed, with its placeholder at index `e`; a bracketed text may become one. -/
structure ContQ (N : Notes) (os : List (Opener × Nat)) (e lo : Nat) (es : List Event) (hi : Nat) : Prop where
  ex : ∃ A ph op B x m, es = A ++ ph :: op :: (B ++ [x]) ∧ e = A.length ∧ Lay N os lo A m ∧ Ph ph ∧
    Fits m ph ∧ Fits ph.span.stop op ∧ Bal N op.span.stop B x.span.start ∧ x.span.start ≤ x.span.stop ∧ x.span.stop = hi ∧
    ((∃ c, op.kind = .enter c ∧ x.kind = .exit c ∧ Delim N.src N.cow (linkText N.src B) c (Block.sliceOf N.src op.span) (Block.sliceOf N.src ⟨op.span.stop, x.span.start⟩) (Block.sliceOf N.src x.span)) ∨
      (op.kind = .str ∧ x.kind = .str ∧ x.span.start < x.span.stop ∧ SpanOpen (Block.sliceOf N.src op.span) ∧ Block.sliceOf N.src x.span = b! "]"))

theorem Delim.ends {w : Bytes} {k : Container} {o x : Span} (h : Delim N.src N.cow w k (Block.sliceOf N.src o) (Block.sliceOf N.src ⟨o.stop, x.start⟩) (Block.sliceOf N.src x)) :
    Ends N k o x [] w :=
  ⟨_, [], by simp, h, .inl ⟨rfl, rfl⟩⟩

theorem ContQ.lay {os : List (Opener × Nat)} {e lo : Nat} {es : List Event} {hi : Nat} (h : ContQ N os e lo es hi) : Lay N os lo es hi := by
  obtain ⟨A, ph, op, B, x, m, rfl, rfl, h1, h2, h3, h4, h5, h6, h7, h8⟩ := h.ex
  refine h1.append (.leaf (.inr (.inl h2)) h3 ?_)
  rcases h8 with ⟨c, h8, h9, h10⟩ | ⟨h8, h9, h10, h11⟩
  · exact .node h8 h9 h4 h5 h6 h10.ends (.nil (Nat.le_of_eq h7))
  · exact .leaf (.inl h8) h4 (h5.append (.one (.inl h9) ⟨Nat.le_refl _, h6⟩ (Nat.le_of_eq h7)))

theorem ContQ.notes {M : Notes} (hm : N.Le M) {os : List (Opener × Nat)} {e lo hi : Nat} {es : List Event} (h : ContQ N os e lo es hi)
    (hy : ∀ y : Span, y.start ≤ y.stop → y.stop ≤ hi → (Block.sliceOf N.src y = b! "(" ∨ Block.sliceOf N.src y = b! "[") → LineOk N y → LineOk M y) : ContQ M os e lo es hi := by
  obtain ⟨A, ph, op, B, x, m, h1, h2, h3, h4, h5, h6, h7, h8, h9, h10⟩ := h.ex
  refine ⟨A, ph, op, B, x, m, h1, h2, h3.notes hm ?_, h4, h5, h6, h7.mono hm, h8, h9, ?_⟩
  · intro y a1 a2
    have := h5.le; have := h6.le; have := h7.le
    exact hy y a1 (by omega)
  · rcases h10 with ⟨c, a1, a2, a3⟩ | h10
    · refine .inl ⟨c, a1, a2, ?_⟩
      have := a3.mono hm
      rw [hm.src] at this ⊢
      exact this
    · exact .inr (by rw [hm.src]; exact h10)

/-! ## Weights -/

/-- Bound for the number of events emitted for an event. -/
def wt (e : Event) : Nat :=
  match e.kind with
  | .str | .placeholder => 1 + e.span.len
  | .attributes false _ => 2
  | _ => 1

def weight (es : List Event) : Nat := (es.map wt).sum

@[simp] theorem weight_nil : weight [] = 0 := rfl
@[simp] theorem weight_cons (e : Event) (es : List Event) : weight (e :: es) = wt e + weight es := by simp [weight]
@[simp] theorem weight_append (a b : List Event) : weight (a ++ b) = weight a + weight b := by simp [weight]

theorem wt_pos (e : Event) : 1 ≤ wt e := by
  unfold wt; split <;> omega

theorem wt_le (e : Event) : wt e ≤ e.span.len + 3 := by
  unfold wt; split <;> omega

theorem weight_le (es : List Event) : weight es ≤ (es.map (fun e => e.span.len + 3)).sum := by
  induction es with
  | nil => simp
  | cons e es ih => have := wt_le e; simp; omega

/-! ## Emission -/

/-- An open container: where it starts, its attributes, and the text in it up to now. -/
structure Open where
  c : Container
  o : Span
  own : Attr.Attributes
  seen : Bytes

/-- Text `t` in the open containers. -/
def addText (st : List Open) (t : Bytes) : List Open := st.map fun k => { k with seen := k.seen ++ t }

@[simp] theorem addText_nil {st : List Open} : addText st [] = st := by simp [addText]
@[simp] theorem addText_none {t : Bytes} : addText [] t = [] := rfl
@[simp] theorem addText_cons {k : Open} {st : List Open} {t : Bytes} : addText (k :: st) t = { k with seen := k.seen ++ t } :: addText st t := rfl
@[simp] theorem addText_add {st : List Open} {s t : Bytes} : addText (addText st s) t = addText st (s ++ t) := by simp [addText]

/-- The events still to be emitted when the containers `st` are open, all at `n` or later. -/
inductive Tail (N : Notes) : List Open → Nat → List Event → Nat → Prop
  | nil {n hi} : n ≤ hi → Tail N [] n [] hi
  | leaf {st n hi e es} : Plain e → Fits n e → Tail N (addText st (evText N.src e)) e.span.stop es hi → Tail N st n (e :: es) hi
  | word {st n hi a e es i} : a.kind = .attributes false i → e.kind = .empty → e.span = a.span → Fits n a → Written N i a.span →
      Tail N st a.span.stop es hi → Tail N st n (a :: e :: es) hi
  | enter {st n hi e c es} : e.kind = .enter c → Fits n e → Tail N (⟨c, e.span, [], []⟩ :: st) e.span.stop es hi → Tail N st n (e :: es) hi
  | exit {st n hi e k es} : e.kind = .exit k.c → Fits n e → Ends N k.c k.o e.span k.own k.seen → Tail N st e.span.stop es hi → Tail N (k :: st) n (e :: es) hi
  | attr {st n hi a e c es i own} : a.kind = .attributes true i → e.kind = .enter c → Fits n e → N.ats[i]? = some own →
      Tail N (⟨c, e.span, own, []⟩ :: st) e.span.stop es hi → Tail N st n (a :: e :: es) hi

theorem Tail.mono {M : Notes} (hm : N.Le M) {st : List Open} {n hi : Nat} {es : List Event} (h : Tail N st n es hi) : Tail M st n es hi := by
  induction h with
  | nil h => exact .nil h
  | leaf a b _ ih => exact .leaf a b (by rw [hm.src]; exact ih)
  | word a b c d e _ ih => exact .word a b c d (e.mono hm) ih
  | enter a b _ ih => exact .enter a b ih
  | exit a b c _ ih => exact .exit a b (c.mono hm) ih
  | attr a b c d _ ih => exact .attr a b c (hm.ats _ _ d) ih

theorem Bal.tail {n m : Nat} {es : List Event} (h : Bal N n es m) {st : List Open} {K : List Event} {hi : Nat} (hK : Tail N (addText st (linkText N.src es)) m K hi) :
    Tail N st n (es ++ K) hi := by
  induction h generalizing K st with
  | nil h =>
    rw [linkText_nil, addText_nil] at hK
    cases hK with
    | nil h2 => exact .nil (by omega)
    | leaf a b c => exact .leaf a (b.mono h) c
    | word a b c d e f => exact .word a b c (d.mono h) e f
    | enter a b c => exact .enter a (b.mono h) c
    | exit a b c d => exact .exit a (b.mono h) c d
    | attr a b c d e => exact .attr a b (c.mono h) d e
  | leaf a b c ih => exact .leaf a b (ih (by simpa using hK))
  | word a b c d e f ih =>
    refine .word a b c d e (ih ?_)
    simpa [evText, a, b] using hK
  | node a b c d e f g ih1 ih2 =>
    have := Tail.enter (st := st) a c (ih1 (by
      rw [addText_cons]
      exact .exit (k := ⟨_, _, _, _⟩) b ⟨Nat.le_refl _, e⟩ f (ih2 (by simpa [evText, a, b] using hK))))
    simpa using this
  | attr a b c d e f g h i ih1 ih2 =>
    have := Tail.attr (st := st) a b d g (ih1 (by
      rw [addText_cons]
      exact .exit (k := ⟨_, _, _, _⟩) c ⟨Nat.le_refl _, f⟩ h (ih2 (by simpa [evText, a, b, c] using hK))))
    simpa using this

theorem Bal.toTail {n hi : Nat} {es : List Event} (h : Bal N n es hi) : Tail N [] n es hi := by
  have := h.tail (st := []) (.nil (Nat.le_refl _))
  simpa using this

theorem Tail.lo {st : List Open} {n n' hi : Nat} {es : List Event} (h : Tail N st n es hi) (h1 : n' ≤ n) : Tail N st n' es hi := by
  have := (Bal.nil h1).tail (st := st) (by simpa using h)
  simpa using this

theorem Tail.le {st : List Open} {n hi : Nat} {es : List Event} (h : Tail N st n es hi) : n ≤ hi := by
  induction h with
  | nil h => exact h
  | leaf _ h _ ih => have := h.le; omega
  | word _ _ _ h _ _ ih => have := h.le; omega
  | enter _ h _ ih => have := h.le; omega
  | exit _ h _ _ ih => have := h.le; omega
  | attr _ _ h _ _ ih => have := h.le; omega

theorem Tail.hi {st : List Open} {n hi hi' : Nat} {es : List Event} (h : Tail N st n es hi) (h1 : hi ≤ hi') : Tail N st n es hi' := by
  induction h with
  | nil h => exact .nil (by omega)
  | leaf a b _ ih => exact .leaf a b (ih h1)
  | word a b c d e _ ih => exact .word a b c d e (ih h1)
  | enter a b _ ih => exact .enter a b (ih h1)
  | exit a b c _ ih => exact .exit a b c (ih h1)
  | attr a b c d _ ih => exact .attr a b c d (ih h1)

end Jotdown.Inline
