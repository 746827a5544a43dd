import Verif.Proofs.Before
import Verif.Proofs.LexText
/-! # Tables: helper lemmas -/
namespace Jotdown.Block
open Jotdown

section
variable {src : Bytes}

/-- The cells are separators. -/
def SepCells (src : Bytes) (C : List Event) : Prop :=
  ∀ e ∈ C, e.kind = .inline → isSeparatorCell (sliceOf src e.span) = true

/-- State of the loop over the tokens of a row. -/
structure RowSt (src : Bytes) (E : List Event) (e : Event) (st : List Nat) (p0 : TP) (stop : Nat) (p : TP) (r : Row) : Prop where
  ev : ∃ C, p = { p0 with open_ := E.length :: st, events := E ++ e :: C } ∧ Cells src e.span.stop C r.cellStart ∧
    (r.separatorRow = true → SepCells src C)
  le : r.cellStart ≤ r.pos
  len : r.pos ≤ stop
  bs : Bd (src.drop r.cellStart)
  be : Bd (src.drop r.pos)

theorem endCell_ok {E : List Event} {e : Event} {st : List Nat} {p0 p : TP} {stop : Nat} {r : Row} (hs : Safe src)
    (h0 : p0.src = src) (hstop : stop ≤ src.length) (h : RowSt src E e st p0 stop p r)
    (hlt : r.pos + 1 ≤ stop) (hpost : Bd (src.drop (r.pos + 1))) :
    Sat Never (p.endCell r 1) (fun x => RowSt src E e st p0 stop x.1 { x.2 with pos := r.pos + 1 } ∧
      x.2.pos = r.pos) := by
  obtain ⟨C, rfl, hC, hsep⟩ := h.ev
  subst h0
  unfold TP.endCell
  have hsp : SpanOk p0.src ⟨r.cellStart, r.pos⟩ := ⟨h.le, by have := h.len; simp; omega, h.bs, h.be⟩
  refine Sat.bind (TP.trim_ok (p := { p0 with open_ := E.length :: st, events := E ++ e :: C }) hsp hs) ?_
  intro sp hsub
  rw [hsub.ok.slice]
  simp only [Bind.bind, Except.bind]
  unfold TP.inline TP.enter TP.exit TP.enterNode
  have hidx : ∀ a b : Event, idx (E ++ e :: C ++ [a] ++ [b]) (E ++ e :: C).length = .ok a := by
    intro a b
    rw [List.append_assoc]
    exact idx_append _ _ _
  simp only [hidx, Bind.bind, Except.bind, pure, Except.pure]
  refine Sat.ok ⟨⟨⟨C ++ [⟨.enter (.leaf (.tableCell ((p0.alignments[r.columnIndex]?).getD .unspecified))), ⟨r.cellStart, r.cellStart⟩⟩,
    ⟨.inline, sp⟩, ⟨.exit (.leaf (.tableCell ((p0.alignments[r.columnIndex]?).getD .unspecified))), ⟨r.pos, r.pos + 1⟩⟩],
    by simp, ?_, ?_⟩, ?_, ?_, ?_, ?_⟩, rfl⟩
  · simp only
    exact hC.append (.cons (a := (p0.alignments[r.columnIndex]?).getD .unspecified)
      ⟨rfl, trivial, hsp.at_start, Nat.le_refl _⟩ rfl hsub.ok hsub.start hsub.stop
      ⟨rfl, ⟨by simp, by simp; omega, h.be, hpost⟩⟩ (.nil (Nat.le_refl _)))
  · simp only [Bool.and_eq_true]
    intro hh e' he' hk
    rcases List.mem_append.1 he' with h1 | h1
    · exact hsep hh.1 e' h1 hk
    · simp only [List.mem_cons, List.not_mem_nil, or_false] at h1
      rcases h1 with rfl | rfl | rfl
      · simp at hk
      · exact hh.2
      · simp at hk
  · simp
  · simpa using hlt
  · exact hpost
  · exact hpost

theorem rowLoop_ok {E : List Event} {e : Event} {st : List Nat} {p0 : TP} {base stop : Nat} (hs : Safe src)
    (h0 : p0.src = src) (hsp : SpanOk src ⟨base, stop⟩) {fuel : Nat} :
    ∀ {p : TP} {lex : Lex.Lexer} {r : Row}, lex.src = sliceOf src ⟨base, stop⟩ → Lex.LenInv lex → Lex.BdInv lex →
      Lex.TextInv lex → r.pos = base + (lex.pos - lex.nextLen) → RowSt src E e st p0 stop p r →
      lex.src.length < fuel + (lex.pos - lex.nextLen) →
      Sat Never (p.rowLoop fuel lex r) (fun x => RowSt src E e st p0 stop x.1 x.2) := by
  induction fuel with
  | zero =>
    intro p lex r _ hl _ _ _ _ hf
    have := hl.pos_le; omega
  | succ fuel ih =>
    intro p lex r hsrc hl hb ht hpos h hf
    unfold TP.rowLoop
    have h1 := Lex.nextTok_step lex hl
    have h2 := Lex.nextTok_bd lex hb
    have h3 := Lex.nextTok_text lex ht
    cases hn : lex.nextTok with
    | mk o lex' =>
      rw [hn] at h1 h2 h3
      simp only at h1 h2 h3
      cases o with
      | none => exact Sat.ok h
      | some t =>
        obtain ⟨k, len⟩ := t
        have hst := h1.some _ rfl
        simp only at hst
        have hle : lex'.pos - lex'.nextLen ≤ lex'.src.length := by have := h1.inv.pos_le; omega
        rw [h1.src] at hle
        have hslen := sliceOf_length hsp
        simp only at hslen
        rw [hsrc, hslen] at hle
        have hbase := hsp.le
        simp only at hbase
        have hbd : Bd (src.drop (r.pos + len)) := by
          have hbn := h2.next
          rw [h1.src, hsrc, hst.2] at hbn
          have := bd_of_sub hsp (by rw [hslen]; omega) hbn
          rw [hpos, Nat.add_assoc]; exact this
        have hnext : ∀ (b : Bool) (q : TP) (r' : Row), r'.pos = r.pos + len → RowSt src E e st p0 stop q r' →
            Sat Never (q.rowLoop fuel { lex' with verbatim := b } r') (fun x => RowSt src E e st p0 stop x.1 x.2) := by
          intro b q r' hr' hst'
          refine ih (by simp only; rw [h1.src, hsrc]) ⟨h1.inv.next_le, h1.inv.pos_le, h1.inv.next_pos⟩
            ⟨h2.safe, h2.pos, h2.next, h2.esc⟩ h3.2 ?_ hst' ?_
          · show r'.pos = base + (lex'.pos - lex'.nextLen)
            rw [hst.2]; omega
          · show lex'.src.length < fuel + (lex'.pos - lex'.nextLen)
            rw [hst.2, h1.src]; omega
        have hstep : ∀ v, RowSt src E e st p0 stop p { r with pos := r.pos + len, verbatim := v } := by
          intro v
          exact ⟨h.ev, by have := h.le; simp; omega, by simp only; omega, h.bs, hbd⟩
        simp only
        split
        · split
          · exact hnext false _ _ rfl (hstep none)
          · exact hnext lex'.verbatim _ { r with pos := r.pos + len } rfl (hstep r.verbatim)
        · rename_i hv
          split
          · rename_i hk
            subst hk
            have htx := (h3.1 _ rfl).1
            unfold Lex.TextOf at htx
            simp only [Lex.Symbol.text] at htx
            have hlen1 : len = 1 := by
              have := congrArg List.length htx
              simp only [List.length_take, List.length_drop, List.length_singleton] at this
              rw [hsrc, hslen] at this
              have := h1.inv.pos_le
              omega
            subst hlen1
            have hlt1 : r.pos + 1 ≤ stop := by omega
            refine Sat.bind (endCell_ok hs h0 hsp.len h hlt1 hbd) ?_
            intro x hx
            refine hnext lex'.verbatim x.1 _ (by simp only [hx.2]) ?_
            have := hx.1
            rw [← hx.2] at this
            exact this
          · split
            · exact hnext true _ _ rfl (hstep (some len))
            · exact hnext lex'.verbatim _ { r with pos := r.pos + len } rfl (hstep r.verbatim)

/-! ## Separator rows -/

theorem cellAlignment_ok {c : Bytes} (h : c ≠ []) : Sat Never (cellAlignment c) (fun _ => True) := by
  unfold cellAlignment
  cases c with
  | nil => exact absurd rfl h
  | cons a c =>
    have h1 : idx (a :: c) 0 = .ok a := rfl
    have h2 : csub (a :: c).length 1 = .ok c.length := by simp [csub]
    have h3 : idx (a :: c) c.length = .ok ((a :: c)[c.length]) := by
      unfold idx; rw [List.getElem?_eq_getElem (by simp)]
    simp only [h1, h2, h3, Bind.bind, Except.bind]
    trivial

theorem alignmentsOf_ok {C : List Event} (h : ∀ e ∈ C, e.kind = .inline → SpanOk src e.span) (hsep : SepCells src C) :
    Sat Never (alignmentsOf src C) (fun _ => True) := by
  induction C with
  | nil => trivial
  | cons e C ih =>
    unfold alignmentsOf
    have ih' := ih (fun e he => h e (by simp [he])) (fun e he => hsep e (by simp [he]))
    split
    · rename_i hk
      rw [(h e (by simp) hk).slice]
      simp only [Bind.bind, Except.bind]
      refine Sat.bind (cellAlignment_ok ?_) ?_
      · intro h0
        have := hsep e (by simp) hk
        rw [h0] at this
        simp [isSeparatorCell] at this
      · intro a _
        refine Sat.bind ih' ?_
        intro _ _
        trivial
    · exact ih'

theorem Cells.inl {lo hi : Nat} {C : List Event} (h : Cells src lo C hi) : ∀ e ∈ C, e.kind = .inline → SpanOk src e.span := by
  induction h with
  | nil => simp
  | cons a b c _ _ f _ ih =>
    intro e' he hk
    simp only [List.mem_cons] at he
    rcases he with rfl | rfl | rfl | he
    · rw [a.kind] at hk; simp at hk
    · exact c
    · rw [f.kind] at hk; simp at hk
    · exact ih e' he hk

theorem realign_length (als : List Alignment) (i : Nat) (C : List Event) : (realign als i C).length = C.length := by
  induction C generalizing i with
  | nil => rfl
  | cons e C ih => unfold realign; split <;> simp [ih]

theorem realign_cells {lo hi : Nat} {C : List Event} (als : List Alignment) (n : Nat) (h : Cells src lo C hi) (x : Event)
    (hx : ∀ a, x.kind ≠ .enter (.leaf (.tableCell a)) ∧ x.kind ≠ .exit (.leaf (.tableCell a))) :
    ∃ C', realign als (2 * n) (C ++ [x]) = C' ++ [x] ∧ Cells src lo C' hi := by
  induction h generalizing n with
  | nil h =>
    refine ⟨[], ?_, .nil h⟩
    simp only [List.nil_append, realign]
    split
    · rename_i a ha; exact absurd ha (hx a).1
    · rename_i a ha; exact absurd ha (hx a).2
    · rfl
  | @cons lo hi e i y a G h1 h2 h3 h4 h5 h6 _ ih =>
    obtain ⟨C', h7, h8⟩ := ih (n + 1)
    have hh : 2 * n / 2 = n := by omega
    have hh2 : (2 * n + 1) / 2 = n := by omega
    have hh3 : 2 * n + 1 + 1 = 2 * (n + 1) := by omega
    refine ⟨{ e with kind := .enter (.leaf (.tableCell ((als[n]?).getD .unspecified))) } :: i ::
      { y with kind := .exit (.leaf (.tableCell ((als[n]?).getD .unspecified))) } :: C', ?_, ?_⟩
    · simp only [List.cons_append, realign, h1.kind, h2, h6.kind, hh, hh2, hh3, h7]
    · exact .cons ⟨rfl, trivial, h1.span, h1.lo⟩ h2 h3 h4 h5 ⟨rfl, h6.span⟩ h8

/-- State of the loop over the rows. -/
structure RowsSt (src : Bytes) (T : List Event) (lo hi : Nat) (p0 : TP) (last : Option (Nat × Nat)) (p : TP) : Prop where
  ev : ∃ R als, p = { p0 with events := T ++ R, alignments := als } ∧
    ((R = [] ∧ last = none ∧ lo ≤ hi) ∨
     ∃ R1 e C x h m, R = R1 ++ (e :: C ++ [x]) ∧ Rows src lo R1 m ∧ Enters src m e (.container (.tableRow h)) ∧
      Cells src e.span.stop C x.span.start ∧ Exits src x (.container (.tableRow h)) ∧ x.span.stop ≤ hi ∧
      last = some ((T ++ R1).length, (T ++ R1 ++ e :: C).length))

theorem RowsSt.rows {T : List Event} {lo hi : Nat} {p0 p : TP} {last : Option (Nat × Nat)} (h : RowsSt src T lo hi p0 last p) :
    ∃ R als, p = { p0 with events := T ++ R, alignments := als } ∧ Rows src lo R hi := by
  obtain ⟨R, als, h1, h2⟩ := h.ev
  refine ⟨R, als, h1, ?_⟩
  rcases h2 with ⟨rfl, -, hle⟩ | ⟨R1, e, C, x, h, m, rfl, h3, h4, h5, h6, h7, -⟩
  · exact .nil hle
  · exact h3.append (.cons h4 h5 h6 (.nil h7))

theorem setHeadRow_ok {T : List Event} {lo hi : Nat} {p0 p : TP} {en ex : Nat} (h : RowsSt src T lo hi p0 (some (en, ex)) p) :
    Sat Never (p.setHeadRow en ex) (RowsSt src T lo hi p0 (some (en, ex))) := by
  obtain ⟨R, als, rfl, h2⟩ := h.ev
  rcases h2 with ⟨-, h2, -⟩ | ⟨R1, e, C, x, h, m, rfl, h3, h4, h5, h6, h7, h8⟩
  · simp at h2
  · simp at h8
    obtain ⟨rfl, rfl⟩ := h8
    unfold TP.setHeadRow
    simp only
    obtain ⟨C', hC', hc⟩ := realign_cells als 0 h5 x (by intro a; rw [h6.kind]; simp)
    have e1 : T ++ (R1 ++ (e :: C ++ [x])) = (T ++ R1 ++ [e]) ++ (C ++ [x]) := by simp
    have e2 : T.length + R1.length + 1 = (T ++ R1 ++ [e]).length := by simp; omega
    rw [e1, e2, List.take_left, List.drop_left, hC']
    have hlen : C'.length = C.length := by
      have := congrArg List.length hC'
      rw [realign_length] at this
      simpa using this.symm
    have e3 : T ++ R1 ++ [e] ++ (C' ++ [x]) = (T ++ R1) ++ e :: (C' ++ [x]) := by simp
    have e4 : T.length + R1.length = (T ++ R1).length := by simp
    rw [e3, e4, idx_append]
    simp only [Bind.bind, Except.bind, h4.kind]
    rw [List.set_append_right _ _ (Nat.le_refl _)]
    simp only [Nat.sub_self, List.set_cons_zero]
    have e5 : ∀ e' : Event, T ++ R1 ++ e' :: (C' ++ [x]) = (T ++ R1 ++ e' :: C') ++ x :: [] := by intro e'; simp
    have e6 : ∀ e' : Event, (T ++ R1 ++ e :: C).length = (T ++ R1 ++ e' :: C').length := by intro e'; simp [hlen]
    rw [e5]
    have e7 : T.length + (R1.length + (C.length + 1)) = (T ++ R1 ++ ⟨.enter (.container (.tableRow true)), e.span⟩ :: C').length := by
      simp [hlen]
    rw [e7, idx_append]
    simp only [h6.kind]
    rw [List.set_append_right _ _ (Nat.le_refl _)]
    simp only [Nat.sub_self, List.set_cons_zero]
    refine Sat.ok ⟨R1 ++ (⟨.enter (.container (.tableRow true)), e.span⟩ :: C' ++ [⟨.exit (.container (.tableRow true)), x.span⟩]),
      als, by simp, Or.inr ⟨R1, _, C', _, true, m, rfl, h3, ⟨rfl, trivial, h4.span, h4.lo⟩, hc, ⟨rfl, h6.span⟩, h7, ?_⟩⟩
    simp [hlen]

theorem parseRow_ok {T : List Event} {lo hi : Nat} {p0 p : TP} {last : Option (Nat × Nat)} {row : Span} (hs : Safe src)
    (h0 : p0.src = src) (h : RowsSt src T lo hi p0 last p) (hrow : SpanOk src row) (hlo : hi ≤ row.start)
    (hhd : (sliceOf src row).head? = some (c! '|')) :
    Sat Never (p.parseRow row last) (fun x => RowsSt src T lo row.stop p0 x.2 x.1) := by
  have hev := h.ev
  obtain ⟨R, als, hp, h2⟩ := h.ev
  have hlt : row.start < row.stop := by
    have := sliceOf_length hrow
    cases hsl : sliceOf src row with
    | nil => rw [hsl] at hhd; simp at hhd
    | cons a s => rw [hsl] at this; simp at this; omega
  have hpsrc : p.src = src := by rw [hp]; exact h0
  have hbs := sliceOf_bd_safe hrow hs
  have hb1 : Bd ((sliceOf src row).drop 1) := by
    cases hsl : sliceOf src row with
    | nil => simp
    | cons a s =>
      rw [hsl] at hhd hbs; simp at hhd; subst hhd
      exact hbs.2.1 (by decide)
  have hsp : SpanOk src ⟨row.start + 1, row.stop⟩ := hrow.advance (by omega) hb1
  have hcut : SpanOk src ⟨row.start, row.start + 1⟩ := hrow.cut (by omega) hb1
  subst hpsrc
  unfold TP.parseRow
  have hsl : byteSlice p.src (row.start + 1) row.stop = .ok (sliceOf p.src ⟨row.start + 1, row.stop⟩) := by
    unfold byteSlice sliceOf
    rw [if_pos ⟨hsp.le, hsp.len⟩]
  simp only [TP.enter]
  rw [hsl]
  simp only [Bind.bind, Except.bind]
  refine Sat.bind (rowLoop_ok (E := p.events) (e := ⟨.enter (.container (.tableRow false)), ⟨row.start, row.start + 1⟩⟩)
    (st := p.open_) (p0 := p) hs rfl hsp rfl (Lex.LenInv.new _) (Lex.BdInv.new (hsp.bs.take _) ((hs.drop _).take _))
    (Lex.TextInv.new _) (by simp [Lex.Lexer.new, Lex.Lexer.nextLen]) ?_ (by simp [Lex.Lexer.new])) ?_
  · exact ⟨⟨[], rfl, .nil (Nat.le_refl _), by intro _ e he; simp at he⟩, Nat.le_refl _, hsp.le, hsp.bs, hsp.bs⟩
  · intro ⟨q, r⟩ hq
    obtain ⟨C, rfl, hC, hsep⟩ := hq.ev
    simp only
    split
    · rename_i hh
      have hr : r.separatorRow = true := by
        cases hr : r.separatorRow with
        | true => rfl
        | false => rw [hr] at hh; simp at hh
      have ed : (p.events ++ (⟨.enter (.container (.tableRow false)), ⟨row.start, row.start + 1⟩⟩ : Event) :: C).drop (p.events.length + 1) = C := by
        rw [← List.drop_drop, List.drop_left]; rfl
      rw [ed]
      refine Sat.bind (alignmentsOf_ok hC.inl (hsep hr)) ?_
      intro als' _
      simp only [List.take_left, List.drop_one, List.tail_cons]
      have hst : RowsSt p.src T lo row.stop p0 last { p with alignments := als' } := by
        refine ⟨R, als', by rw [hp], ?_⟩
        rcases h2 with ⟨h3, h4, h5⟩ | ⟨R1, e, C, x, h, m, h3, h4, h5, h6, h7, h8, h9⟩
        · exact Or.inl ⟨h3, h4, by omega⟩
        · exact Or.inr ⟨R1, e, C, x, h, m, h3, h4, h5, h6, h7, by omega, h9⟩
      cases last with
      | none => exact Sat.ok hst
      | some ee =>
        obtain ⟨en, ex⟩ := ee
        simp only
        refine Sat.bind (setHeadRow_ok hst) ?_
        intro q hq
        exact Sat.ok hq
    · simp only [TP.exit, TP.enterNode, idx_append, Bind.bind, Except.bind, pure, Except.pure]
      refine Sat.ok ⟨R ++ (⟨.enter (.container (.tableRow false)), ⟨row.start, row.start + 1⟩⟩ :: C ++
        [⟨.exit (.container (.tableRow false)), ⟨r.pos, r.pos⟩⟩]), als, by rw [hp]; simp, Or.inr ⟨R, _, C, _, false, hi, rfl, ?_,
          ⟨rfl, trivial, hcut, hlo⟩, hC.mono (Nat.le_refl _) hq.le, ⟨rfl, ?_⟩, hq.len, ?_⟩⟩
      · obtain ⟨R', als', h5, h6⟩ := h.rows
        rw [hp] at h5
        simp only [TP.mk.injEq, List.append_cancel_left_eq] at h5
        have : R = R' := h5.2.2.2.2.2.2.2.2
        rw [this]; exact h6
      · exact .empty (Nat.le_trans hq.len hsp.len) hq.be
      · rw [hp]

theorem sliceOf_cut {sp : Span} {n : Nat} (hn : n ≤ sp.stop - sp.start) : sliceOf src ⟨sp.start, sp.start + n⟩ = (sliceOf src sp).take n := by
  unfold sliceOf
  simp only
  rw [List.take_take]
  congr 1; omega

theorem trim_slice {p : TP} {sp : Span} (h : SpanOk p.src sp) (hs : Safe p.src) :
    Sat Never (p.trim sp) (fun r => SubSpan p.src sp r ∧ sliceOf p.src r = Jotdown.trim (sliceOf p.src sp)) := by
  unfold TP.trim
  refine Sat.bind (TP.trimStart_ok h hs) ?_
  intro r hr
  refine (TP.trimEnd_ok hr.2.ok).mono ?_
  intro r' hr'
  refine ⟨hr.2.trans hr'.2, ?_⟩
  have h1 : sliceOf p.src r = Jotdown.trimStart (sliceOf p.src sp) := by
    rw [hr.1, sliceOf_advance]
    exact countWhile_dropWhile isWs _
  rw [hr'.1, sliceOf_cut, ← trimEnd_take, h1]
  · rfl
  · rw [← sliceOf_length hr.2.ok]
    exact trimEnd_length_le _

theorem parseRows_ok {T : List Event} {lo : Nat} {p0 : TP} (hs : Safe src) (h0 : p0.src = src) :
    ∀ {rows : List Span} {hi stop : Nat} {p : TP} {last : Option (Nat × Nat)}, RowsSt src T lo hi p0 last p →
      LinesOk src hi rows stop → (∀ l ∈ rows, RowLine src l) →
      Sat Never (p.parseRows last rows) (fun p' => ∃ l, RowsSt src T lo stop p0 l p') := by
  intro rows
  induction rows with
  | nil =>
    intro hi stop p last h hl _
    cases hl with
    | nil hle =>
      refine Sat.ok ⟨last, ?_⟩
      obtain ⟨R, als, rfl, h2⟩ := h.ev
      refine ⟨R, als, rfl, ?_⟩
      rcases h2 with ⟨h3, h4, h5⟩ | ⟨R1, e, C, x, h, m, h3, h4, h5, h6, h7, h8, h9⟩
      · exact Or.inl ⟨h3, h4, by omega⟩
      · exact Or.inr ⟨R1, e, C, x, h, m, h3, h4, h5, h6, h7, by omega, h9⟩
  | cons row rows ih =>
    intro hi stop p last h hl hr
    cases hl with
    | cons hsp hlo nl hl =>
      unfold TP.parseRows
      have hpsrc : p.src = src := by
        obtain ⟨R, als, rfl, h2⟩ := h.ev
        exact h0
      subst hpsrc
      refine Sat.bind (trim_slice hsp hs) ?_
      intro r hrr
      split
      · rename_i he
        refine Sat.ok ⟨last, ?_⟩
        have hle := hl.le
        have hle2 := hsp.le
        obtain ⟨R, als, h1, h2⟩ := h.ev
        refine ⟨R, als, h1, ?_⟩
        rcases h2 with ⟨h3, h4, h5⟩ | ⟨R1, e, C, x, h, m, h3, h4, h5, h6, h7, h8, h9⟩
        · exact Or.inl ⟨h3, h4, by omega⟩
        · exact Or.inr ⟨R1, e, C, x, h, m, h3, h4, h5, h6, h7, by omega, h9⟩
      · rename_i he
        have hne : sliceOf p.src r ≠ [] := by
          intro h0
          have := sliceOf_length hrr.1.ok
          rw [h0] at this
          simp [Span.isEmpty] at he this
          omega
        have hhd : (sliceOf p.src r).head? = some (c! '|') := by
          rcases hr row (by simp) with h1 | h1
          · rw [hrr.2, h1] at hne; exact absurd rfl hne
          · rw [hrr.2]; exact h1
        refine Sat.bind (parseRow_ok hs h0 h hrr.1.ok (by have := hrr.1.start; omega) hhd) ?_
        intro ⟨q, last'⟩ hq
        exact ih hq (hl.mono hrr.1.stop (Nat.le_refl _)) (fun l hl => hr l (by simp [hl]))

/-! ## Caption -/

theorem captionLine_ok {rows caps : List Span} (h : ∀ l ∈ rows ++ caps, SpanOk src l) (hr : ∀ l ∈ rows, RowLine src l)
    (hc : caps = [] ∨ ∃ c rest, caps = c :: rest ∧ CapLine src c) : captionLine src (rows ++ caps) = .ok rows.length := by
  induction rows with
  | nil =>
    rcases hc with rfl | ⟨c, rest, rfl, hcap⟩
    · rfl
    · simp only [List.nil_append, captionLine]
      rw [(h c (by simp)).slice]
      simp only [Bind.bind, Except.bind]
      rw [if_pos]
      · rfl
      · unfold CapLine Jotdown.trim at hcap
        obtain ⟨w, hw, -⟩ := trimEnd_spec (Jotdown.trimStart (sliceOf src c))
        rw [hw]
        cases ht : trimEnd (Jotdown.trimStart (sliceOf src c)) with
        | nil => rw [ht] at hcap; simp at hcap
        | cons x xs => rw [ht] at hcap; simp [List.isPrefixOf] at hcap; simp [hcap.1]
  | cons l rows ih =>
    have ih' := ih (fun m hm => h m (by simp at hm ⊢; exact Or.inr hm)) (fun m hm => hr m (by simp [hm]))
    simp only [List.cons_append, captionLine]
    rw [(h l (by simp)).slice]
    simp only [Bind.bind, Except.bind]
    rw [if_neg, ih']
    · rfl
    · intro hh
      rcases hr l (by simp) with h1 | h1
      · have := (isBlank_iff _).2 h1
        have h2 : Jotdown.trimStart (sliceOf src l) = [] := by
          unfold Jotdown.trimStart
          rw [dropWhile_nil_iff]; exact List.all_eq_true.1 this
        rw [h2] at hh; simp at hh
      · unfold Jotdown.trim at h1
        obtain ⟨w, hw, -⟩ := trimEnd_spec (Jotdown.trimStart (sliceOf src l))
        rw [hw] at hh
        cases ht : trimEnd (Jotdown.trimStart (sliceOf src l)) with
        | nil => rw [ht] at h1; simp at h1
        | cons x xs => rw [ht] at h1 hh; simp at h1 hh; rw [h1] at hh; exact absurd hh (by decide)

theorem parseCaption_ok {p : TP} {spanStart spanEnd : Span} {ls : List Span} (hsrc : p.src = src) (hs : Safe src)
    (h1 : SpanOk src spanStart) (h2 : SpanOk src spanEnd) (hl : LinesOk src spanStart.stop ls spanEnd.start)
    (hc : ls = [] ∨ ∃ c rest, ls = c :: rest ∧ CapLine src c) :
    Sat Never (p.parseCaption spanStart spanEnd ls) (fun p' => ∃ cap, p' = { p with events := p.events ++ cap } ∧
      (cap = [] ∨ LeafSeg src .caption spanStart.start cap spanEnd.stop)) := by
  subst hsrc
  unfold TP.parseCaption
  split
  · exact Sat.ok ⟨[], by simp, Or.inl rfl⟩
  · rename_i first rest
    cases hl with
    | cons hsp hlo nl hl =>
      refine Sat.bind (TP.trimStart_ok (p := p.enter (.leaf .caption) spanStart) hsp hs) ?_
      intro r hr
      rcases hc with hc | ⟨c, rest', hc, hcap⟩
      · simp at hc
      · injection hc with hc1 hc2
        subst hc1 hc2
        have hsl : sliceOf p.src r = Jotdown.trimStart (sliceOf p.src first) := by
          rw [hr.1]
          show sliceOf p.src ⟨first.start + leadingWs (sliceOf p.src first), first.stop⟩ = _
          rw [sliceOf_advance]
          exact countWhile_dropWhile isWs _
        have hpre : ∃ s, sliceOf p.src r = c! '^' :: c! ' ' :: s := by
          unfold CapLine Jotdown.trim at hcap
          obtain ⟨w, hw, -⟩ := trimEnd_spec (Jotdown.trimStart (sliceOf p.src first))
          rw [hsl, hw]
          match ht : trimEnd (Jotdown.trimStart (sliceOf p.src first)), hcap with
          | [], hcap => simp at hcap
          | [x], hcap => simp [List.isPrefixOf] at hcap
          | x :: y :: s, hcap =>
            simp [List.isPrefixOf] at hcap
            exact ⟨s ++ w, by simp [hcap.1, hcap.2]⟩
        obtain ⟨s, hs2⟩ := hpre
        have hrok : SpanOk p.src r := hr.2.ok
        have hlen2 := sliceOf_length hrok
        rw [hs2] at hlen2
        simp at hlen2
        have hbs := sliceOf_bd_safe hrok hs
        rw [hs2] at hbs
        have hadv : SpanOk p.src ⟨r.start + 2, r.stop⟩ := hrok.advance (by omega) (by rw [hs2]; exact hbs.2.2.1 (by decide))
        have hst : first.start ≤ r.start := hr.2.start
        have hsp2 : r.stop ≤ first.stop := hr.2.stop
        have hlines : LinesOk p.src spanStart.stop (⟨r.start + 2, r.stop⟩ :: rest) spanEnd.start :=
          .cons hadv (by simp only; omega) (by simp only [hr.1]; exact nl) (hl.mono hsp2 (Nat.le_refl _))
        refine Sat.bind (trimLast_ok (p := p.enter (.leaf .caption) spanStart) (hlines.leaf (fed := true))) ?_
        intro ls' hls'
        have hls1 : LeafLines p.src true spanStart.stop ls' spanEnd.start := hls'
        rw [foldl_inline]
        unfold TP.exit TP.enter TP.enterNode
        simp only [List.append_assoc, List.cons_append, List.nil_append, idx_append, Bind.bind, Except.bind, pure, Except.pure]
        exact Sat.ok ⟨⟨.enter (.leaf .caption), spanStart⟩ :: ls'.map (fun l => (⟨.inline, l⟩ : Event)) ++
          [⟨.exit (.leaf .caption), spanEnd⟩], by simp,
          Or.inr (.mk ⟨rfl, trivial, h1, Nat.le_refl _⟩ (linesOk_inl (fed := true) hls1) ⟨rfl, h2⟩ (Nat.le_refl _))⟩

/-- A table. -/
theorem parseTable_ok {cx : Cx} {secs : List Nat} {E0 : List Event} {st : List Nat} {lists : List OpenList} {lo hi : Nat} {p : TP}
    (h : LvlA src cx secs E0 st lists lo hi p) (hs : Safe src) {spanStart spanEnd : Span}
    {ls : List Span} (h1 : SpanOk src spanStart) (h2 : SpanOk src spanEnd) (hlo : hi ≤ spanStart.start)
    (hl : LinesOk src spanStart.stop ls spanEnd.start) (hss : spanStart.start = spanStart.stop)
    (hse : spanEnd.start = spanEnd.stop) (ht : TabLines src ls) (hn : NodeOk src spanStart (.container .table)) :
    Sat Never (p.parseTable ls spanStart spanEnd) (fun p' => LvlA src cx secs E0 st lists lo spanEnd.stop p' ∧
      p'.attrStart = p.attrStart) := by
  have hsrc := h.src_eq
  subst hsrc
  obtain ⟨rows, caps, rfl, hrows, hcaps⟩ := ht
  unfold TP.parseTable
  simp only [TP.enter]
  rw [captionLine_ok (fun l hm => hl.mem hm) hrows hcaps]
  simp only [Bind.bind, Except.bind]
  rw [List.drop_left, List.take_left]
  obtain ⟨hl1, hl2⟩ := hl.split
  have hle1 := hl1.le
  have hle2 := hl2.le
  refine Sat.bind (parseCaption_ok (p := { p with
    alignments := []
    open_ := p.events.length :: p.open_
    events := p.events ++ [⟨.enter (.container .table), spanStart⟩] }) rfl hs h1 h2 (hl2.mono hle1 (Nat.le_refl _)) hcaps) ?_
  rintro p1 ⟨cap, rfl, hcap⟩
  refine Sat.bind (parseRows_ok (T := p.events ++ ⟨.enter (.container .table), spanStart⟩ :: cap) (lo := spanStart.stop)
    (hi := spanStart.stop)
    (p0 := { p with
      alignments := []
      open_ := p.events.length :: p.open_
      events := p.events ++ [⟨.enter (.container .table), spanStart⟩] }) hs rfl (last := none)
    ⟨[], [], by simp, Or.inl ⟨rfl, rfl, Nat.le_refl _⟩⟩ (hl1.mono (Nat.le_refl _) hle2) hrows) ?_
  rintro p2 ⟨last, hp2⟩
  obtain ⟨R, als, rfl, hR⟩ := hp2.rows
  unfold TP.exit TP.enterNode
  simp only [List.append_assoc, List.cons_append, List.nil_append, idx_append, Bind.bind, Except.bind, pure, Except.pure]
  refine Sat.ok ⟨?_, rfl⟩
  have hF : Forest p.src cx hi (⟨.enter (.container .table), spanStart⟩ :: cap ++ R ++ ⟨.exit (.container .table), spanEnd⟩ :: []) spanEnd.stop := by
    refine .table ⟨rfl, hn, h1, hlo⟩ ⟨h.cx_ne, ?_⟩ hR ⟨rfl, h2⟩ (.nil (Nat.le_refl _))
    rcases hcap with h | h
    · exact Or.inl h
    · right
      simp only
      rw [hse, ← hss]; exact h
  have := (h.append hF).congr (p' := { p with alignments := als, events := p.events ++ ((⟨.enter (.container .table), spanStart⟩ : Event) :: cap ++ R ++ ⟨.exit (.container .table), spanEnd⟩ :: []) }) rfl rfl rfl rfl rfl
  simpa using this

end
end Jotdown.Block
