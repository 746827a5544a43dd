import Verif.Proofs.InlState
/-! # Inline attributes -/
namespace Jotdown.Inline
open Jotdown
open Jotdown.Block
open Jotdown.Notation

variable {c : Cx}

/-! ## Events by index -/

theorem idx_at {α : Type} {A B : List α} {x : α} {n : Nat} (hn : n = A.length) : idx (A ++ x :: B) n = .ok x := by
  subst hn
  simp [idx]

theorem set_at {α : Type} {A B : List α} {x y : α} {n : Nat} (hn : n = A.length) : (A ++ x :: B).set n y = A ++ y :: B := by
  subst hn
  simp

theorem setKind_at {A B : List Event} {x : Event} {n : Nat} {k : EventKind} (hn : n = A.length) :
    setKind (A ++ x :: B) n k = .ok (A ++ { x with kind := k } :: B) := by
  unfold setKind
  rw [idx_at hn]
  simp only [Bind.bind, Except.bind, Pure.pure, Except.pure]
  rw [set_at hn]

theorem setStop_at {A B : List Event} {x : Event} {n stop : Nat} (hn : n = A.length) :
    setStop (A ++ x :: B) n stop = .ok (A ++ { x with span := ⟨x.span.start, stop⟩ } :: B) := by
  unfold setStop
  rw [idx_at hn]
  simp only [Bind.bind, Except.bind, Pure.pure, Except.pure]
  rw [set_at hn]

theorem csub_ok {a b : Nat} (h : b ≤ a) : csub a b = .ok (a - b) := by
  unfold csub; rw [if_pos h]

/-- The last event is set to end at `n`. -/
def upTo (x : Event) (n : Nat) : Event := { x with span := ⟨x.span.start, n⟩ }

/-! ## Attaching attributes to a container -/

/-- Result of attaching attributes to the container in the queue. -/
structure Attached (N : Notes) (os : List (Opener × Nat)) (lo s e' : Nat) (ns na : Nat) (es es' : List Event) : Prop where
  lay : Lay N os lo es' e'
  evs : ∀ e ∈ es', EvOk N.src ns na e
  weight : weight es' ≤ weight es + (e' - s)
  last : LastOk N.src es'

theorem wt_kind {e : Event} (h : e.kind = .empty ∨ (∃ i, e.kind = .attributes true i) ∨ (∃ c, e.kind = .enter c) ∨ (∃ c, e.kind = .exit c) ∨ ∃ a, e.kind = .atom a) : wt e = 1 := by
  unfold wt
  rcases h with h | ⟨i, h⟩ | ⟨i, h⟩ | ⟨i, h⟩ | ⟨i, h⟩ <;> rw [h]

theorem wt_str {e : Event} (h : e.kind = .str) : wt e = 1 + e.span.len := by
  unfold wt
  rw [h]

theorem text_slice {src : Bytes} {sp : Span} {t : Bytes} (h : sliceOf src sp = t) (hs : SpanOk src sp) : sp.stop = sp.start + t.length := by
  have := congrArg List.length h
  have h2 := hs.le
  rw [show sp = ⟨sp.start, sp.stop⟩ from rfl, slice_length hs.len] at this
  omega

/-- The closing event may end later. -/
theorem closing_last {src : Bytes} {x : Event} {e' hi : Nat} {A : List Event} (hx : (∃ c, x.kind = .exit c) ∨ (x.kind = .str ∧ x.span.start < hi)) (h : hi ≤ e') :
    LastOk src (A ++ [upTo x e']) := by
  refine LastOk.append (fun hk => ?_) (fun hk => ?_)
  · rcases hx with ⟨c, hx⟩ | ⟨hx, h2⟩
    · simp [upTo, hx] at hk
    · left; simp [upTo]; omega
  · rcases hx with ⟨c, hx⟩ | ⟨hx, h2⟩
    · simp [upTo, hx] at hk
    · simp [upTo, hx] at hk

/-- The end of a container that goes on with attributes. -/
theorem ends_upTo {N : Notes} {w : Bytes} {k : Container} {o x : Span} {e' : Nat} {own : Attr.Attributes}
    (hd : Delim N.src N.cow w k (sliceOf N.src o) (sliceOf N.src ⟨o.stop, x.start⟩) (sliceOf N.src x)) (hx : x.start ≤ x.stop) (he : x.stop ≤ e')
    (hl : e' ≤ N.src.length) (hw : WrittenAttrs (sliceOf N.src ⟨x.stop, e'⟩) own) : Ends N k o ⟨x.start, e'⟩ own w :=
  ⟨sliceOf N.src x, sliceOf N.src ⟨x.stop, e'⟩, (slice_append hx he hl).symm, hd, hw⟩

theorem attachSpan_ok {os : List (Opener × Nat)} {e lo : Nat} {es : List Event} {s e' ns na : Nat} {N : Notes} {src : Bytes} (hN : N.src = src)
    (hs : Safe src) (h : ContQ N os e lo es s) {own : Attr.Attributes} (hw : WrittenAttrs (sliceOf src ⟨s, e'⟩) own)
    (hev : ∀ x ∈ es, EvOk src ns na x) (he : s ≤ e') (hb : SpanOk src ⟨s, e'⟩) (at_ : Event) {i : Nat}
    (hat : at_.kind = .attributes true i) (hown : N.ats[i]? = some own) (hi : i < na) (hsp : SpanOk src at_.span) :
    ∃ (op : Event × Event) (es1 : List Event), idx es e = .ok op.1 ∧ idx (es.set e at_) (e + 1) = .ok op.2 ∧ attachSpan src (es.set e at_) e op.2 = .ok es1 ∧
      ∃ es2, 1 ≤ es1.length ∧ setStop es1 (es1.length - 1) e' = .ok es2 ∧ Attached N os lo s e' ns na es es2 := by
  obtain ⟨A, ph, op, B, x, m, rfl, rfl, h1, h2, h3, h4, h5, h6, h7, h8⟩ := h.ex
  subst hN
  subst h7
  have hph := hev ph (by simp)
  have hop := hev op (by simp)
  have hx := hev x (by simp)
  have hxk : SpanOk N.src (upTo x e').span := ⟨by simp [upTo]; omega, hb.len, hx.span.bs, hb.be⟩
  refine ⟨(ph, op), ?_⟩
  rw [set_at rfl]
  have hidx : idx (A ++ at_ :: op :: (B ++ [x])) (A.length + 1) = .ok op := by
    have : A ++ at_ :: op :: (B ++ [x]) = (A ++ [at_]) ++ op :: (B ++ [x]) := by simp
    rw [this, idx_at (by simp)]
  have hlast : ∀ (Z : List Event) (y : Event), setStop (Z ++ [y]) ((Z ++ [y]).length - 1) e' = .ok (Z ++ [upTo y e']) := by
    intro Z y
    rw [setStop_at (by simp)]
    rfl
  rcases h8 with ⟨k, h8, h9, hd⟩ | ⟨h8, h9, h10, h11, h12⟩
  · refine ⟨A ++ at_ :: op :: (B ++ [x]), idx_at rfl, hidx, ?_, A ++ at_ :: op :: (B ++ [upTo x e']), by simp; omega, ?_, ?_⟩
    · unfold attachSpan
      rw [if_neg (by rw [h8]; simp)]
    · have : A ++ at_ :: op :: (B ++ [x]) = (A ++ at_ :: op :: B) ++ [x] := by simp
      rw [this, hlast]; simp
    · refine ⟨?_, ?_, ?_, ?_⟩
      · refine h1.append (.attr (c := k) hat h8 h9 ⟨?_, h4.2⟩ h5 hxk.le hown (ends_upTo hd h6 he hb.len hw) (.nil (Nat.le_refl _)))
        have := h3.le; have := h4.1; omega
      · intro y hy
        simp at hy
        rcases hy with hy | rfl | rfl | hy | rfl
        · exact hev y (by simp [hy])
        · exact ⟨hsp, by rw [hat]; exact hi, by rw [hat]; trivial⟩
        · exact hop
        · exact hev y (by simp [hy])
        · exact ⟨hxk, hx.kind, by simp [upTo, h9, KindText]⟩
      · have := wt_pos ph
        simp
        rw [wt_kind (e := at_) (.inr (.inl ⟨_, hat⟩)), wt_kind (e := upTo x e') (.inr (.inr (.inr (.inl ⟨_, h9⟩)))),
          wt_kind (e := x) (.inr (.inr (.inr (.inl ⟨_, h9⟩))))]
        omega
      · have := closing_last (src := N.src) (A := A ++ at_ :: op :: B) (.inl ⟨k, h9⟩ : (∃ c, x.kind = .exit c) ∨ (x.kind = .str ∧ x.span.start < x.span.stop)) he
        simpa using this
  · have hlen : op.span.start ≤ op.span.stop := hop.span.le
    by_cases htext : sliceOf N.src op.span = b! "!["
    · have hst := text_slice htext hop.span
      simp at hst
      have hc1 : N.src[op.span.start]? = some 33 := by
        rw [← slice_head (b := op.span.stop) (by omega)]
        have := congrArg List.head? htext
        simpa using this
      have hbd := bd_after hs hc1 (by decide)
      have hsp1 : splitBang (A ++ at_ :: op :: (B ++ [x])) A.length op (b! "![") =
          (A ++ ⟨.str, ⟨op.span.start, op.span.start + 1⟩⟩ :: at_ :: { op with span := ⟨op.span.start + 1, op.span.stop⟩ } :: (B ++ [x]), A.length + 1) := by
        unfold splitBang
        rw [if_pos rfl]
        congr 1
        rw [List.take_left, List.drop_left]
        have : A ++ ({ kind := .str, span := ⟨op.span.start, op.span.start + 1⟩ } : Event) :: at_ :: op :: (B ++ [x]) =
            (A ++ [({ kind := .str, span := ⟨op.span.start, op.span.start + 1⟩ } : Event), at_]) ++ op :: (B ++ [x]) := by simp
        rw [this, set_at (by simp)]
        simp
      refine ⟨A ++ ⟨.str, ⟨op.span.start, op.span.start + 1⟩⟩ :: at_ :: ⟨.enter .span, ⟨op.span.start + 1, op.span.stop⟩⟩ :: (B ++ [{ x with kind := .exit .span }]),
        idx_at rfl, hidx, ?_,
        A ++ ⟨.str, ⟨op.span.start, op.span.start + 1⟩⟩ :: at_ :: ⟨.enter .span, ⟨op.span.start + 1, op.span.stop⟩⟩ :: (B ++ [upTo { x with kind := .exit .span } e']),
        by simp; omega, ?_, ?_⟩
      · unfold attachSpan
        rw [if_pos h8, hop.span.slice, htext]
        simp only [Bind.bind, Except.bind]
        rw [hsp1]
        simp only
        have : A ++ ({ kind := .str, span := ⟨op.span.start, op.span.start + 1⟩ } : Event) :: at_ :: ({ kind := op.kind, span := ⟨op.span.start + 1, op.span.stop⟩ } : Event) :: (B ++ [x]) =
            (A ++ [({ kind := .str, span := ⟨op.span.start, op.span.start + 1⟩ } : Event), at_]) ++ ({ kind := op.kind, span := ⟨op.span.start + 1, op.span.stop⟩ } : Event) :: (B ++ [x]) := by simp
        rw [this, setKind_at (by simp)]
        simp only
        rw [csub_ok (by simp; omega)]
        simp only
        have : (A ++ [({ kind := .str, span := ⟨op.span.start, op.span.start + 1⟩ } : Event), at_]) ++ ({ kind := .enter .span, span := ⟨op.span.start + 1, op.span.stop⟩ } : Event) :: (B ++ [x]) =
            (A ++ ({ kind := .str, span := ⟨op.span.start, op.span.start + 1⟩ } : Event) :: at_ :: ({ kind := .enter .span, span := ⟨op.span.start + 1, op.span.stop⟩ } : Event) :: B) ++ x :: [] := by simp
        rw [this, setKind_at (by simp)]
        simp
      · have : ∀ y, A ++ ({ kind := .str, span := ⟨op.span.start, op.span.start + 1⟩ } : Event) :: at_ :: ({ kind := .enter .span, span := ⟨op.span.start + 1, op.span.stop⟩ } : Event) :: (B ++ [y]) =
            (A ++ ({ kind := .str, span := ⟨op.span.start, op.span.start + 1⟩ } : Event) :: at_ :: ({ kind := .enter .span, span := ⟨op.span.start + 1, op.span.stop⟩ } : Event) :: B) ++ [y] := by intro y; simp
        rw [this, this, hlast]
      · have hf4 := h4.1
        have hf3 := h3.le
        refine ⟨?_, ?_, ?_, ?_⟩
        · have hbr : sliceOf N.src ⟨op.span.start + 1, op.span.stop⟩ = b! "[" := by
            have := congrArg (List.drop 1) htext
            rw [show op.span = ⟨op.span.start, op.span.stop⟩ from rfl, slice_drop] at this
            exact this
          refine h1.append (.leaf (.inl rfl) ⟨by simp only; omega, by simp⟩ (.attr (c := .span) hat rfl rfl ⟨by simp, by simp only; omega⟩ h5 hxk.le hown (ends_upTo (.inl ⟨.inl hbr, h12⟩) h6 he hb.len hw) (.nil (Nat.le_refl _))))
        · intro y hy
          simp at hy
          rcases hy with hy | rfl | rfl | rfl | hy | rfl
          · exact hev y (by simp [hy])
          · exact ⟨⟨by simp, by have := hop.span.len; simp only; omega, hop.span.bs, hbd⟩, trivial, trivial⟩
          · exact ⟨hsp, by rw [hat]; exact hi, by rw [hat]; trivial⟩
          · exact ⟨⟨by simp only; omega, hop.span.len, hbd, hop.span.be⟩, trivial, trivial⟩
          · exact hev y (by simp [hy])
          · exact ⟨hxk, trivial, trivial⟩
        · have hwp := wt_pos ph
          simp only [weight_append, weight_cons, weight_nil]
          rw [wt_kind (e := at_) (.inr (.inl ⟨_, hat⟩)), wt_str h8, wt_str h9]
          generalize wt ph = w at *
          simp only [wt, upTo, Span.len]
          omega
        · have : ∀ y, A ++ ({ kind := .str, span := ⟨op.span.start, op.span.start + 1⟩ } : Event) :: at_ :: ({ kind := .enter .span, span := ⟨op.span.start + 1, op.span.stop⟩ } : Event) :: (B ++ [y]) =
            (A ++ ({ kind := .str, span := ⟨op.span.start, op.span.start + 1⟩ } : Event) :: at_ :: ({ kind := .enter .span, span := ⟨op.span.start + 1, op.span.stop⟩ } : Event) :: B) ++ [y] := by intro y; simp
          rw [this]
          exact LastOk.append (by simp [upTo]) (by simp [upTo])
    · have hsp1 : splitBang (A ++ at_ :: op :: (B ++ [x])) A.length op (sliceOf N.src op.span) = (A ++ at_ :: op :: (B ++ [x]), A.length) := by
        unfold splitBang
        rw [if_neg htext]
      refine ⟨A ++ at_ :: { op with kind := .enter .span } :: (B ++ [{ x with kind := .exit .span }]), idx_at rfl, hidx, ?_,
        A ++ at_ :: { op with kind := .enter .span } :: (B ++ [upTo { x with kind := .exit .span } e']), by simp; omega, ?_, ?_⟩
      · unfold attachSpan
        rw [if_pos h8, hop.span.slice]
        simp only [Bind.bind, Except.bind]
        rw [hsp1]
        simp only
        have : A ++ at_ :: op :: (B ++ [x]) = (A ++ [at_]) ++ op :: (B ++ [x]) := by simp
        rw [this, setKind_at (by simp)]
        simp only
        rw [csub_ok (by simp; omega)]
        simp only
        have : (A ++ [at_]) ++ ({ kind := .enter .span, span := op.span } : Event) :: (B ++ [x]) =
            (A ++ at_ :: ({ kind := .enter .span, span := op.span } : Event) :: B) ++ x :: [] := by simp
        rw [this, setKind_at (by simp)]
        simp
      · have : ∀ y, A ++ at_ :: ({ kind := .enter .span, span := op.span } : Event) :: (B ++ [y]) =
            (A ++ at_ :: ({ kind := .enter .span, span := op.span } : Event) :: B) ++ [y] := by intro y; simp
        rw [this, this, hlast]
      · have hf4 := h4.1
        have hf3 := h3.le
        refine ⟨?_, ?_, ?_, ?_⟩
        · refine h1.append (.attr (c := .span) hat rfl rfl ⟨by simp only; omega, h4.2⟩ h5 hxk.le hown (ends_upTo (.inl ⟨h11.resolve_right htext, h12⟩) h6 he hb.len hw) (.nil (Nat.le_refl _)))
        · intro y hy
          simp at hy
          rcases hy with hy | rfl | rfl | hy | rfl
          · exact hev y (by simp [hy])
          · exact ⟨hsp, by rw [hat]; exact hi, by rw [hat]; trivial⟩
          · exact ⟨hop.span, trivial, trivial⟩
          · exact hev y (by simp [hy])
          · exact ⟨hxk, trivial, trivial⟩
        · have hwp := wt_pos ph
          simp only [weight_append, weight_cons, weight_nil]
          rw [wt_kind (e := at_) (.inr (.inl ⟨_, hat⟩)), wt_str h8, wt_str h9]
          generalize wt ph = w at *
          simp only [wt, upTo, Span.len]
          omega
        · have : ∀ y, A ++ at_ :: ({ kind := .enter .span, span := op.span } : Event) :: (B ++ [y]) =
            (A ++ at_ :: ({ kind := .enter .span, span := op.span } : Event) :: B) ++ [y] := by intro y; simp
          rw [this]
          exact LastOk.append (by simp [upTo]) (by simp [upTo])

/-- Empty attributes only extend the container. -/
theorem extend_ok {os : List (Opener × Nat)} {e lo : Nat} {es : List Event} {s e' ns na : Nat} {N : Notes} {src : Bytes} (hN : N.src = src)
    (h : ContQ N os e lo es s) (hw : WrittenAttrs (sliceOf src ⟨s, e'⟩) []) (hev : ∀ x ∈ es, EvOk src ns na x) (he : s ≤ e') (hb : SpanOk src ⟨s, e'⟩) :
    ∃ es2, 1 ≤ es.length ∧ setStop es (es.length - 1) e' = .ok es2 ∧ Attached N os lo s e' ns na es es2 := by
  obtain ⟨A, ph, op, B, x, m, rfl, rfl, h1, h2, h3, h4, h5, h6, h7, h8⟩ := h.ex
  subst hN
  subst h7
  have hx := hev x (by simp)
  have hxk : SpanOk N.src (upTo x e').span := ⟨by simp [upTo]; omega, hb.len, hx.span.bs, hb.be⟩
  have happ : ∀ y, A ++ ph :: op :: (B ++ [y]) = (A ++ ph :: op :: B) ++ [y] := by intro y; simp
  refine ⟨A ++ ph :: op :: (B ++ [upTo x e']), by simp; omega, ?_, ?_, ?_, ?_, ?_⟩
  · rw [happ, happ, setStop_at (by simp)]
    rfl
  · refine h1.append (.leaf (.inr (.inl h2)) h3 ?_)
    rcases h8 with ⟨k, h8, h9, hd⟩ | ⟨h8, h9, h10, h11⟩
    · exact .node h8 h9 h4 h5 hxk.le (ends_upTo hd h6 he hb.len hw) (.nil (Nat.le_refl _))
    · exact .leaf (.inl h8) h4 (h5.append (.one (.inl h9) ⟨Nat.le_refl _, hxk.le⟩ (Nat.le_refl _)))
  · intro y hy
    simp at hy
    rcases hy with hy | rfl | rfl | hy | rfl
    · exact hev y (by simp [hy])
    · exact hev _ (by simp)
    · exact hev _ (by simp)
    · exact hev y (by simp [hy])
    · refine ⟨hxk, hx.kind, ?_⟩
      rcases h8 with ⟨k, h8, h9, hd⟩ | ⟨h8, h9, h10, h11⟩ <;> simp [upTo, h9, KindText]
  · simp only [weight_append, weight_cons, weight_nil]
    rcases h8 with ⟨k, h8, h9, hd⟩ | ⟨h8, h9, h10, h11⟩
    · rw [wt_kind (e := upTo x e') (.inr (.inr (.inr (.inl ⟨_, h9⟩)))), wt_kind (e := x) (.inr (.inr (.inr (.inl ⟨_, h9⟩))))]
      omega
    · rw [wt_str (e := upTo x e') h9, wt_str h9]
      simp only [upTo, Span.len]
      omega
  · rw [happ]
    refine closing_last (hi := x.span.stop) ?_ he
    rcases h8 with ⟨k, h8, h9, hd⟩ | ⟨h8, h9, h10, h11⟩
    · exact .inl ⟨k, h9⟩
    · exact .inr ⟨h9, by omega⟩

/-- Attributes may be read at `s`. -/
structure Pre (c : Cx) (p : IP) (ty : ElemTy) (s : Nat) : Prop where
  inp : InpOk c p.input
  attr : p.attributes = none
  verb : p.verbatim = none
  shape : Shape (nts c p) p.openers c.lo p.events s ty
  evs : EvsOk c.src p
  store : ∀ a ∈ p.storeAttributes, GoodAttrs a
  last : LastOk c.src p.events
  pot : pot c p s ≤ c.K
  q : c.q ≤ s
  al : p.input.ahead.length ≤ c.al

theorem pot_none {p : IP} {n : Nat} (h : p.verbatim = none) : pot c p n = weight p.events + 3 * (c.src.length - n) := by
  unfold pot; rw [h]; simp

theorem emitAttributes_ok (hc : c.Ok) {p : IP} {ty : ElemTy} {s e' : Nat} (h : Pre c p ty s) (hsp : p.input.span = ⟨s, e'⟩) (hlt : s < e')
    {attrs : Attr.Attributes} (hk : Attr.KeysOk attrs) (hw : WrittenAttrs (sliceOf c.src ⟨s, e'⟩) attrs) : Sat Never (p.emitAttributes ty attrs) (Adv c) := by
  have hspan := h.inp.spanOk hc
  rw [hsp] at hspan
  have hstop : p.input.span.stop = e' := by rw [hsp]
  have hlen := hspan.len
  simp only at hlen
  have hpot := h.pot
  rw [pot_none h.verb] at hpot
  have mk : ∀ {os es' na}, ∀ p' : IP, Attached (nts c p') p.openers c.lo s e' p.storeCowstrs.length na p.events es' → os = p.openers →
      p'.input = p.input → p'.attributes = none → p'.verbatim = none → p'.openers = os → p'.events = es' →
      p'.storeCowstrs = p.storeCowstrs → p'.storeAttributes.length = na → (∀ a ∈ p'.storeAttributes, GoodAttrs a) → Adv c p' := by
    intro os es' na p' ha hos e1 e2 e3 e4 e5 e6 e7 e8
    refine ⟨⟨by rw [e1]; exact h.inp, e2, ?_, ?_, e8, ?_, ?_, .none e3⟩, ?_, ?_⟩
    · rw [e3, e4, e5, e1, hstop, hos]; exact ha.lay
    · unfold EvsOk; rw [e5, e6, e7]; exact ha.evs
    · rw [e5]; exact ha.last
    · rw [pot_none e3, e5, e1, hstop]
      have := ha.weight
      omega
    · rw [e1, hstop]; have := h.q; omega
    · rw [e1]; exact h.al
  unfold IP.emitAttributes
  by_cases hemp : attrs.isEmpty = true
  · rw [if_pos hemp]
    have hw0 : WrittenAttrs (sliceOf c.src ⟨s, e'⟩) [] := by
      have : attrs = [] := by simpa using hemp
      rw [← this]; exact hw
    cases ty with
    | container e =>
      obtain ⟨es2, h1, h2, h3⟩ := extend_ok (N := nts c p) rfl h.shape hw0 h.evs (Nat.le_of_lt hlt) hspan
      simp only
      rw [csub_ok h1]
      simp only [Bind.bind, Except.bind]
      rw [hstop, h2]
      exact mk _ h3 rfl rfl h.attr h.verb rfl rfl rfl rfl h.store
    | word =>
      refine ⟨⟨h.inp, h.attr, ?_, h.evs, h.store, h.last, ?_, .none h.verb⟩, ?_, h.al⟩
      · rw [h.verb]; rw [hstop]; exact Lay.hi h.shape (by omega)
      · rw [pot_none h.verb, hstop]; omega
      · rw [hstop]; have := h.q; omega
  · rw [if_neg hemp]
    have hgood : GoodAttrs attrs := ⟨by simpa using hemp, hk⟩
    have hst : ∀ a ∈ p.storeAttributes ++ [attrs], GoodAttrs a := by
      intro a ha
      simp at ha
      rcases ha with ha | rfl
      · exact h.store a ha
      · exact hgood
    have hev : ∀ x ∈ p.events, EvOk c.src p.storeCowstrs.length (p.storeAttributes.length + 1) x :=
      fun x hx => (h.evs x hx).mono (Nat.le_refl _) (by omega)
    have hle : (nts c p).Le (nts c { p with storeAttributes := p.storeAttributes ++ [attrs] }) := by
      refine ⟨rfl, fun _ _ h => h, fun i v h => ?_⟩
      have := (List.getElem?_eq_some_iff.1 h).1
      simp only [nts] at *
      rw [List.getElem?_append_left this]; exact h
    have hlines : ∀ n, Lines (nts c p) (nts c { p with storeAttributes := p.storeAttributes ++ [attrs] }) n :=
      fun n => .same rfl (fun _ h => h)
    cases ty with
    | container e =>
      obtain ⟨op, es1, h1, h2, h3, es2, h4, h5, h6⟩ := attachSpan_ok (N := nts c { p with storeAttributes := p.storeAttributes ++ [attrs] }) (src := c.src) rfl hc.safe (Shape.notes (ty := .container e) hle h.shape (hlines _)) hw hev (Nat.le_of_lt hlt) hspan
        ⟨.attributes true p.storeAttributes.length, p.input.span⟩ rfl (by simp [nts]) (by omega) (by rw [hsp]; exact hspan)
      simp only
      unfold IP.attachContainer
      simp only
      rw [h1, h2]
      simp only [Bind.bind, Except.bind]
      rw [h.inp.src, h3]
      simp only
      rw [csub_ok h4]
      simp only
      rw [hstop, h5]
      exact mk _ h6 rfl rfl h.attr h.verb rfl rfl rfl (by simp) hst
    | word =>
      have hw : Lay (nts c { p with storeAttributes := p.storeAttributes ++ [attrs] }) p.openers c.lo (p.events ++ [⟨.attributes false p.storeAttributes.length, p.input.span⟩, ⟨.empty, p.input.span⟩]) e' := by
        refine Lay.append (Shape.notes (ty := .word) hle h.shape (hlines _)) (.word rfl rfl rfl ?_ ⟨attrs, by simp [nts], ?_⟩ (.nil ?_))
        · rw [hsp]; exact ⟨Nat.le_refl _, Nat.le_of_lt hlt⟩
        · rw [hsp]; exact hw
        · rw [hsp]; exact Nat.le_refl _
      refine ⟨⟨h.inp, h.attr, ?_, ?_, hst, ?_, ?_, .none h.verb⟩, ?_, h.al⟩
      · show QueueOk _ p.verbatim p.openers c.lo (p.events ++ [_] ++ [_]) p.input.span.stop
        rw [h.verb, hstop, List.append_assoc]
        exact hw
      · intro x hx
        simp [IP.push, IP.pushSp] at hx
        have hln : (p.storeAttributes ++ [attrs]).length = p.storeAttributes.length + 1 := by simp
        show EvOk c.src p.storeCowstrs.length (p.storeAttributes ++ [attrs]).length x
        rw [hln]
        rcases hx with hx | rfl | rfl
        · exact hev x hx
        · exact ⟨by rw [hsp]; exact hspan, by simp [KindOk], trivial⟩
        · exact ⟨by rw [hsp]; exact hspan, trivial, trivial⟩
      · exact LastOk.append (by simp)
      · rw [pot_none (by exact h.verb)]
        show weight (p.events ++ [_] ++ [_]) + 3 * (c.src.length - p.input.span.stop) ≤ c.K
        rw [hstop]
        simp [wt]
        omega
      · show c.q < p.input.span.stop
        rw [hstop]; have := h.q; omega

theorem popLines_ok (hc : c.Ok) {n : Nat} {i : Input} (h : InpOk c i) (hn : n ≤ i.ahead.length) {s : Nat} :
    ∃ i', i.popLines n = .ok i' ∧ InpOk c i' ∧ i'.ahead = i.ahead.drop n ∧ i'.spanLine.stop = stopAt (i.lines s) n ∧
      (i.spanLine :: i.ahead)[n]? = some i'.spanLine := by
  induction n generalizing i s with
  | zero => exact ⟨i, rfl, h, by simp, by simp [stopAt, Input.lines], rfl⟩
  | succ n ih =>
    cases ha : i.ahead with
    | nil => rw [ha] at hn; simp at hn
    | cons l rest =>
      have hp := h.pop hc ha
      have hl : SpanOk c.src l := (h.chain.mem (l := l) (by rw [ha]; simp)).2.1
      have hset : ({ i with ahead := rest } : Input).setCurrentLine l = _ := setCurrentLine_ok (i := { i with ahead := rest }) (by exact h.src) hl
      rw [ha] at hn
      obtain ⟨i', h1, h2, h3, h4, h5⟩ := ih (s := l.start) hp (by simp at hn ⊢; omega)
      refine ⟨i', ?_, h2, ?_, ?_, by simpa using h5⟩
      · unfold Input.popLines
        rw [ha]
        simp only
        rw [hset]
        simp only [Bind.bind, Except.bind]
        exact h1
      · rw [h3]; simp
      · rw [h4]; simp only [stopAt, Input.lines, ha, List.getElem?_cons_succ]

theorem stopAt_eq {L : List Span} {n : Nat} {l : Span} (h : L[n]? = some l) : stopAt L n = l.stop := by
  simp [stopAt, h]

theorem Input.lines_snoc {i : Input} {s : Nat} {l : Span} : (Input.lines { i with ahead := i.ahead ++ [l] } s) = i.lines s ++ [l] := by
  simp [Input.lines]

theorem InpOk.lines {i : Input} (h : InpOk c i) (hc : c.Ok) {s : Nat} (hs : s ≤ i.spanLine.stop) (hb : Bd (c.src.drop s)) :
    Chain c.src s (i.lines s) c.H ∧ (i.lines s).Pairwise (NlPair c.src) := by
  refine ⟨.cons (Nat.le_refl _) ⟨hs, h.len hc, hb, h.bl⟩ h.chain, ?_⟩
  have := List.pairwise_cons.1 h.nl.1
  refine List.pairwise_cons.2 ⟨?_, this.2⟩
  intro b hb'
  exact this.1 b hb'

theorem finishAttributes_ok (hc : c.Ok) {p : IP} {ty : ElemTy} {s : Nat} (h : Pre c p ty s) (hls0 : p.input.spanLine.start ≤ s ∨ Adjacent c.src) {sc : AttrScan} {more : Bool} (hs : s < p.input.spanLine.stop)
    (hb : Bd (c.src.drop s)) (hopen : c.src[s]? = some (c! '{')) (hsc : Scanned c.src (p.input.lines s) s ty p.input.complete sc more) :
    Sat Never (p.finishAttributes s sc) (Res c (fun p' => p' = p)) := by
  unfold IP.finishAttributes
  split
  · exact rfl
  · rename_i hne
    obtain ⟨hch, hnl⟩ := h.inp.lines hc (Nat.le_of_lt hs) hb
    obtain ⟨a, h1, h2⟩ := hsc.found.parse hc.safe hch hc.le hnl (fun he => hne he.symm)
    have hwr := hsc.found.written hc.safe hch hc.le hnl (fun he => hne he.symm) hopen hs h1
    obtain ⟨l, hl, hl2, hl3⟩ := hsc.found.line
    obtain ⟨l2, hn, hn2⟩ := hsc.line
    have hs1 : s < sc.state.endAttr := by
      have := (hch.get hl).1
      omega
    have hlen : sc.lineNext ≤ p.input.ahead.length := by
      have := (List.getElem?_eq_some_iff.1 hn).1
      simp [Input.lines] at this; omega
    have hle : sc.state.endAttr ≤ sc.lineEnd := by
      rcases Nat.lt_or_ge sc.state.validLines sc.lineNext with hlt | hge
      · have := hch.lt hl hn hlt
        have := (hch.get hn).2.1.le
        omega
      · have : sc.state.validLines = sc.lineNext := by have := hsc.le; omega
        rw [this] at hl
        rw [hn] at hl
        injection hl with hl
        subst hl
        omega
    have hls := (hch.get hn).2.1
    obtain ⟨i', p1, p2, p3, p4, p5⟩ := popLines_ok hc h.inp hlen (s := s)
    rw [stopAt_eq hn, ← hn2] at p4
    have htake : (⟨s, p.input.spanLine.stop⟩ :: p.input.ahead.take sc.state.validLines : List Span) = (p.input.lines s).take (sc.state.validLines + 1) := rfl
    rw [htake, h.inp.src, h1]
    simp only [Bind.bind, Except.bind]
    rw [p1]
    simp only
    have hl4 := hls.len
    rw [← hn2] at hl4
    have hbs : byteSlice i'.src sc.state.endAttr sc.lineEnd = .ok (sliceOf c.src ⟨sc.state.endAttr, sc.lineEnd⟩) := by
      unfold byteSlice
      rw [p2.src, if_pos ⟨hle, hl4⟩]
      rfl
    rw [hbs]
    simp only
    have hinp : InpOk c { i' with span := ⟨s, sc.state.endAttr⟩, lexer := Lex.Lexer.new (sliceOf c.src ⟨sc.state.endAttr, sc.lineEnd⟩) } := by
      refine ⟨p2.src, p2.cpl, Nat.le_of_lt hs1, by simp only; omega, hb, hsc.found.bd, p2.bl, ?_, p2.chain, p2.nl, ?_⟩
      · simp only
        rw [p4]
        exact .new (bd_slice hsc.found.bd) (safe_slice hc.safe)
      · simp only
        rcases Nat.lt_or_ge sc.state.validLines sc.lineNext with hlt | hge
        · right
          have a1 := hsc.found.brace (fun he => hne he.symm)
          have a2 := hsc.opn (fun he => hne he.symm) (.inr hlt)
          exact adjacent_of a1 (by rw [show sc.state.endAttr - 1 + 1 = sc.state.endAttr by omega]; exact a2)
        · have hv : sc.state.validLines = sc.lineNext := by have := hsc.le; omega
          rw [hv] at hl
          cases hz : sc.lineNext with
          | zero =>
            rw [hz] at p5
            simp at p5
            rw [← p5]
            exact hls0.imp_left (fun h => by omega)
          | succ m =>
            rw [hz] at p5 hl
            simp [Input.lines] at p5 hl
            rw [hl] at p5
            simp at p5
            rw [← p5]
            exact .inl hl2
    have hpre : Pre c ({ p with input := { i' with span := ⟨s, sc.state.endAttr⟩, lexer := Lex.Lexer.new (sliceOf c.src ⟨sc.state.endAttr, sc.lineEnd⟩) } }) ty s := by
      refine ⟨hinp, h.attr, h.verb, ?_, h.evs, h.store, h.last, h.pot, h.q, ?_⟩
      · refine h.shape.move rfl rfl ?_
        intro l hl
        simp only at hl ⊢
        rw [p3] at hl
        rcases List.mem_cons.1 hl with rfl | hl
        · exact List.mem_of_getElem? p5
        · exact List.mem_cons_of_mem _ (List.mem_of_mem_drop hl)
      · simp only
        rw [p3]
        have := h.al
        simp; omega
    have := emitAttributes_ok hc hpre (e' := sc.state.endAttr) rfl hs1 h2 hwr
    rw [hsc.ty]
    obtain ⟨r, hr1, hr2⟩ := this.exists_ok
    rw [hr1]
    exact hr2

theorem moreAttributes_ok (hc : c.Ok) {p : IP} {ty : ElemTy} {s : Nat} (h : Pre c p ty s) (hls0 : p.input.spanLine.start ≤ s ∨ Adjacent c.src) {sc : AttrScan} (hs : s < p.input.spanLine.stop)
    (hb : Bd (c.src.drop s)) (hsc : Scanned c.src (p.input.lines s) s ty p.input.complete sc true)
    (hopen : c.src[s]? = some (c! '{')) (hbr : ((sliceOf c.src ⟨s, p.input.spanLine.stop⟩).drop 1).head?.bind Lex.explicitOpen = none)
    {eaten : Bool} (he : eaten = false → p.input.span.stop = s ∧ p.input.lexer.nextTok.1 = some ⟨.opn .brace, 1⟩) :
    Sat Never (p.moreAttributes s sc.state eaten) (fun r => r.2 = some .more ∧ Pending c r.1) := by
  obtain ⟨m1, m2, m3⟩ := hsc.more rfl
  have hn : sc.lineNext = p.input.ahead.length := by simp [Input.lines] at m2; exact m2
  obtain ⟨l2, hl, hl2⟩ := hsc.line
  have hrun : ∃ s0, Attr.srun .start (textTo c.src (p.input.lines s) p.input.ahead.length (stopAt (p.input.lines s) p.input.ahead.length)) = some s0 ∧
      Attr.norm s0 = sc.state.validator := by
    rw [← hn, stopAt_eq hl, ← hl2]
    exact m3
  have hcpl : c.cpl = false := by rw [← h.inp.cpl]; exact m1
  unfold IP.moreAttributes
  cases eaten with
  | true =>
    simp only [if_true]
    have hbs : byteSlice p.input.src s p.input.spanLine.stop = .ok (sliceOf c.src ⟨s, p.input.spanLine.stop⟩) := by
      unfold byteSlice
      rw [h.inp.src, if_pos ⟨Nat.le_of_lt hs, h.inp.len hc⟩]
      rfl
    rw [hbs]
    simp only [Bind.bind, Except.bind]
    refine ⟨rfl, ⟨sc.state, ?_, rfl, h.verb, ?_, h.evs, h.store, h.last, h.pot, ?_, hsc.found, by have := hsc.le; simp only; omega, fun h1 => hsc.opn h1 (.inl rfl), hrun⟩, hcpl⟩
    · exact ⟨h.inp.src, h.inp.cpl, Nat.le_refl _, Nat.le_of_lt hs, hb, hb, h.inp.bl, .new (bd_slice hb) (safe_slice hc.safe), h.inp.chain, h.inp.nl, hls0⟩
    · rw [hsc.ty]; exact h.shape
    · apply Lex.new_brace
      · rw [slice_head hs]; exact hopen
      · exact hbr
  | false =>
    obtain ⟨h1, h2⟩ := he rfl
    subst h1
    refine ⟨rfl, ⟨sc.state, h.inp, rfl, h.verb, ?_, h.evs, h.store, h.last, h.pot, h2, hsc.found, by have := hsc.le; simp only; omega, fun h1 => hsc.opn h1 (.inl rfl), hrun⟩, hcpl⟩
    rw [hsc.ty]; exact h.shape

theorem resume_core (hc : c.Ok) {p : IP} {st : AttributesState} {s : Nat} (h : Pre c p st.elemTy s) (hls0 : p.input.spanLine.start ≤ s ∨ Adjacent c.src) (hs : s < p.input.spanLine.stop)
    (hb : Bd (c.src.drop s)) (hopen : c.src[s]? = some (c! '{'))
    (hbr : ((sliceOf c.src ⟨s, p.input.spanLine.stop⟩).drop 1).head?.bind Lex.explicitOpen = none)
    {eaten first : Bool} (he : eaten = false → p.input.span.stop = s ∧ p.input.lexer.nextTok.1 = some ⟨.opn .brace, 1⟩)
    (hsub : csub p.input.span.stop (if eaten then 1 else 0) = .ok s) {l : Nat × Nat × Nat}
    (hl : p.input.attrStartLine s first = .ok l) (hls : SpanOk c.src ⟨l.2.1, l.2.2⟩) {s0 : Attr.State}
    (hv : st.validator = Attr.norm s0) (hi : s0 ≠ .invalid)
    (hsc : ∀ o v, Attr.validatorParse (Attr.norm s0) 0 (sliceOf c.src ⟨l.2.1, l.2.2⟩) = .ok (o, v) →
      Scanning c.src (p.input.lines s) s ⟨{ st with validator := v }, l.1, l.2.1, l.2.2⟩ o) :
    Sat Never (p.resumeAttributes st eaten first) (Res c (fun p' => p' = p)) := by
  obtain ⟨hch, hnl⟩ := h.inp.lines hc (Nat.le_of_lt hs) hb
  have hlen := h.inp.len hc
  unfold IP.resumeAttributes
  rw [hsub]
  simp only [Bind.bind, Except.bind]
  rw [h.inp.src, strSlice_ok (by omega) (Nat.le_refl _) hb (by simp)]
  simp only
  have hhead : (((c.src.drop s).take (c.src.length - s)).head? == some (c! '{')) = true := by
    rw [List.take_of_length_le (by simp)]
    simp [hopen]
  rw [hhead]
  simp only [dassert, if_true]
  rw [hl]
  simp only
  have hsl : strSlice c.src l.2.1 l.2.2 = .ok (sliceOf c.src ⟨l.2.1, l.2.2⟩) := hls.slice
  rw [hsl]
  simp only
  obtain ⟨o, v, e1, e2, e3⟩ := Attr.validatorParse_srun (Attr.norm s0) 0 (sliceOf c.src ⟨l.2.1, l.2.2⟩)
      (Attr.norm_ne_done _) (Attr.norm_ne_invalid hi)
  rw [hv, e1]
  simp only
  have hscan := hsc o v e1
  have hloop := attrLoop_ok (complete := p.input.complete) hc.safe hch hc.le (attrFuel c.src p.input.ahead) hscan
    (by unfold attrFuel; simp only; have := hls.le; have := hls.len; simp only at *; omega)
  obtain ⟨r, hr1, hr2⟩ := hloop.exists_ok
  rw [hr1]
  simp only
  cases hm : r.2 with
  | true =>
    rw [hm] at hr2
    simp only [if_true]
    obtain ⟨r', h1, h2, h3⟩ := (moreAttributes_ok hc h hls0 hs hb hr2 hopen hbr he).exists_ok
    rw [h1]
    simp only [Sat, Res]
    rw [h2]
    exact h3
  | false =>
    exact finishAttributes_ok hc h hls0 hs hb hopen hr2

theorem aheadAttributes_ok (hc : c.Ok) {p : IP} {ty : ElemTy} {s : Nat} (h : Pre c p ty s) (hls0 : p.input.spanLine.start ≤ s ∨ Adjacent c.src) (hs : s < p.input.spanLine.stop)
    (hb : Bd (c.src.drop s)) (hopen : c.src[s]? = some (c! '{'))
    (hbr : ((sliceOf c.src ⟨s, p.input.spanLine.stop⟩).drop 1).head?.bind Lex.explicitOpen = none)
    {eaten : Bool} (he : eaten = false → p.input.span.stop = s ∧ p.input.lexer.nextTok.1 = some ⟨.opn .brace, 1⟩)
    (hsub : csub p.input.span.stop (if eaten then 1 else 0) = .ok s) :
    Sat Never (p.aheadAttributes ty eaten) (Res c (fun p' => p' = p)) := by
  unfold IP.aheadAttributes
  rw [hsub]
  simp only [Bind.bind, Except.bind]
  have hlen := h.inp.len hc
  refine resume_core hc h hls0 hs hb hopen hbr he hsub (first := true) rfl ⟨Nat.le_of_lt hs, hlen, hb, h.inp.bl⟩ (s0 := .start) rfl (by simp) ?_
  intro o v hv
  refine ⟨⟨⟨_, rfl, Nat.le_refl _, Nat.le_of_lt hs⟩, fun h => absurd rfl h, hb, fun h => absurd rfl h, .inl rfl⟩, Nat.le_refl _, ⟨_, rfl, Nat.le_refl _, Nat.le_of_lt hs, rfl⟩, hb, fun h => absurd rfl h, .start, ?_, hv⟩
  simp [textTo, Input.lines, Attr.srun]

/-- Attributes go on in the line that was fed. -/
theorem resume_ok (hc : c.Ok) {p : IP} {st : AttributesState} {s n : Nat} (h : Pre c p st.elemTy s) (hls0 : p.input.spanLine.start ≤ s ∨ Adjacent c.src) (hs : s < p.input.spanLine.stop)
    (hb : Bd (c.src.drop s)) (hopen : c.src[s]? = some (c! '{'))
    (hbr : ((sliceOf c.src ⟨s, p.input.spanLine.stop⟩).drop 1).head?.bind Lex.explicitOpen = none)
    (hsub : csub p.input.span.stop 1 = .ok s)
    (hfound : Found c.src (p.input.lines s) s st.endAttr st.validLines) (hopn : st.endAttr ≠ s → c.src[st.endAttr]? = some (c! '{')) (hvalid : st.validLines ≤ n) (hn : n + 1 = p.input.ahead.length)
    (hrun : ∃ s0, Attr.srun .start (textTo c.src (p.input.lines s) n (stopAt (p.input.lines s) n)) = some s0 ∧ Attr.norm s0 = st.validator) :
    Sat Never (p.resumeAttributes st true false) (Res c (fun p' => p' = p)) := by
  obtain ⟨s0, hr, hv⟩ := hrun
  have hi : s0 ≠ .invalid := Attr.srun_ne_invalid hr (by simp)
  have hlt : n < p.input.ahead.length := by omega
  have hget : p.input.ahead[n]? = some p.input.ahead[n] := List.getElem?_eq_getElem hlt
  have hL : (p.input.lines s)[n + 1]? = some p.input.ahead[n] := by simp [Input.lines]
  obtain ⟨hch, hnl⟩ := h.inp.lines hc (Nat.le_of_lt hs) hb
  have hls := (hch.get hL).2.1
  have hLn : ∃ a, (p.input.lines s)[n]? = some a := by
    have : n < (p.input.lines s).length := by simp [Input.lines]; omega
    exact ⟨_, List.getElem?_eq_getElem this⟩
  obtain ⟨a, ha⟩ := hLn
  refine resume_core hc h hls0 hs hb hopen hbr (by simp) hsub (l := (n + 1, p.input.ahead[n].start, p.input.ahead[n].stop)) ?_ hls hv.symm hi ?_
  · unfold Input.attrStartLine
    simp only [Bool.false_eq_true, if_false]
    rw [csub_ok (by omega)]
    simp only [Bind.bind, Except.bind, idx]
    rw [← hn, Nat.add_sub_cancel, hget]
    rfl
  · intro o v hv2
    refine ⟨hfound, by simp only; omega, ⟨_, hL, Nat.le_refl _, hls.le, rfl⟩, hls.bs, hopn, s0, ?_, hv2⟩
    simp only
    rw [textTo_next ha hL, ← stopAt_eq ha]
    exact hr

end Jotdown.Inline
