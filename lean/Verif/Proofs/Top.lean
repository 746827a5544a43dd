import Verif.Proofs.Sections
import Verif.Props.Lines
/-! # The top level -/
namespace Jotdown.Block
open Jotdown

theorem beforeBlock_nil (p : TP) (b : Prepared) (h : p.openLists = []) :
    ∃ x y, p.beforeBlock b = .ok { p with prevBlankline := x, prevLoose := y } := by
  obtain ⟨src, pb, pl, as, ol, os, al, op, ev⟩ := p
  simp only at h
  subst h
  unfold TP.beforeBlock TP.maybeCloseList TP.updateLoose
  simp only [Bind.bind, Except.bind]
  split
  · exact ⟨true, pl, rfl⟩
  · refine ⟨false, false, ?_⟩
    cases pb <;> rfl

section
variable {src : Bytes} {hi : Nat} {p : TP} {st : List Nat} {E0 : List Event} {lo : Nat}

theorem CtxOk.nil (E0 : List Event) (st : List Nat) : CtxOk E0 st [] := by
  intro l hl; simp at hl

theorem AttrRun.mono {lo hi lo' hi' : Nat} {A : List Event} (h : AttrRun src lo A hi) (h1 : lo' ≤ lo) (h2 : hi ≤ hi') :
    AttrRun src lo' A hi' := ⟨h.forest.mono h1 h2, h.attrs⟩

theorem Top.before (h : Top src hi p st E0 lo) {b : Prepared} (hk : KindTy b.kind) (hpos : hi ≤ b.spanStart.start)
    (hsp : SpanOk src b.spanStart) :
    Sat Never (p.beforeBlock b) (fun p' => Top src b.spanStart.start p' st E0 lo ∧
      Ready src .top p'.openSections E0 st [] lo b.spanStart.start b.kind p' ∧ p'.attrStart = p.attrStart ∧
      p'.openSections = p.openSections) := by
  have h1 := beforeBlock_ok h.lvl (CtxOk.nil _ _) hk hpos hsp
  obtain ⟨p', hp', hr, ha⟩ := h1.exists_ok
  have hsecs : p'.openSections = p.openSections := by
    rcases hr with hr | hr
    · exact hr.secs_eq
    · exact hr.1.secs_eq
  rw [hp']
  refine Sat.ok ⟨⟨?_, ?_, ?_⟩, ?_, ha, hsecs⟩
  · rw [hsecs]; exact h.doc
  · rw [hsecs]; exact hr.lvl
  · intro a haa
    rw [ha] at haa
    obtain ⟨hA, F, A, m, g1, g2, g3, g4, g5⟩ := h.attr a haa
    obtain ⟨x, y, hxy⟩ := beforeBlock_nil p b hA.lists_eq
    rw [hp'] at hxy
    simp at hxy
    rw [hxy]
    exact ⟨(hA.mono hpos).congr rfl rfl rfl rfl rfl, F, A, m, g1, g2, g3, g4, g5.mono (Nat.le_refl _) hpos⟩
  · rw [hsecs]; exact hr

/-- One block at the top level. -/
theorem parseBlock_top {fuel : Nat} (hs : Safe src) (h : Top src hi p st E0 lo) {first : Span} {rest : List Span} {e : Nat}
    (hl : LinesOk src hi (first :: rest) e) (hfu : Fulls src (first :: rest)) (hf : 3 * weight (first :: rest) ≤ fuel + 1)
    (hd : p.openSections.length + 1 + 2 * weight (first :: rest) ≤ maxDepth src) :
    Sat (Allowed src) (TP.parseBlock (fuel + 1) p (first :: rest) true) (fun r => 1 ≤ r.2 ∧ r.2 ≤ (first :: rest).length ∧
      r.1.openSections.length ≤ p.openSections.length + 1 ∧ ∃ st' E0' lo', Top src (lastStop hi ((first :: rest).take r.2)) r.1 st' E0' lo') := by
  obtain ⟨b, hbe, hb⟩ := (prepare_ok hs hl hfu).exists_ok
  have hstart : hi ≤ b.spanStart.start := by
    have := hb.ssLo
    cases hl with
    | cons _ h2 _ => omega
  by_cases hgen : b.kind.isHeading = false ∧ b.kind ≠ .atom .attributes
  · refine (parseBlock_step hs (all_blocks hs fuel).1 h.lvl (CtxOk.nil _ _) h.doc.pos hl hfu hf (by rw [h.doc.len]; exact hd) ?_).mono ?_
    · intro b' hb'
      rw [hbe] at hb'
      simp at hb'
      rw [← hb']
      exact Or.inr hgen.1
    · intro r ⟨h1, h2, h3, b', hb', h4, h5⟩
      rw [hbe] at hb'
      simp at hb'
      subst hb'
      have hsecs : r.1.openSections = p.openSections := by
        rcases h3 with h | h
        · exact h.secs_eq
        · exact h.secs_eq
      refine ⟨h1, h2, by rw [hsecs]; omega, st, E0, lo, ⟨by rw [hsecs]; exact h.doc, by rw [hsecs]; exact h3, ?_⟩⟩
      intro a ha
      rw [h5 hgen.2] at ha
      simp at ha
  unfold TP.parseBlock
  rw [h.lvl.src_eq]
  refine Sat.bind (P := fun b' => b = b') (by rw [hbe]; exact Sat.ok rfl) ?_
  intro b' hb'; subst hb'
  refine Sat.bind (Sat.lift (h.before (kindTy_of hb.kind) hstart hb.ss)) ?_
  intro p1 ⟨htop, hready, ha, hsec⟩
  rw [hready.lvl.src_eq]
  have hstop : lastStop hi ((first :: rest).take b.lineCount) = b.spanEnd.stop := by
    rw [lastStop_take_succ hi 0 first rest hb.cnt, ← hb.seStop]
  have hle := hb.lines.le
  have hle2 := hb.se.le
  by_cases hattr : b.kind = .atom .attributes
  · -- attributes
    have hA := hready.lvlA (by rw [hattr]; rfl)
    rw [hattr]
    simp only [mkBlock]
    refine Sat.bind (P := fun x => x = .atom .attributes) (Sat.ok rfl) ?_
    intro blk hblk
    subst hblk
    unfold TP.emit
    refine Sat.bind (P := fun x => x = { p1 with events := p1.events ++ [⟨.atom .attributes, b.spanStart⟩] }) (Sat.ok rfl) ?_
    intro p2 hp2
    subst hp2
    have hkok := hb.kind
    unfold KOk at hkok
    rw [hattr] at hkok
    have hfor : Forest src .top b.spanStart.start [⟨.atom .attributes, b.spanStart⟩] b.spanEnd.stop :=
      .atom (e := ⟨.atom .attributes, b.spanStart⟩) rfl hb.ss ⟨hkok, by simp⟩ (Nat.le_refl _) (.nil (by simp only; omega))
    have hA2 := hA.append hfor
    unfold TP.setAttrStart
    simp only [if_true]
    cases has : p1.attrStart with
    | some a =>
      simp only
      obtain ⟨-, F, A, m, g1, g2, g3, g4, g5⟩ := htop.attr a has
      refine Sat.ok ⟨hb.cnt, hb.cntLe, by simp only [hsec]; omega, st, E0, lo, ?_⟩
      simp only [hstop]
      refine ⟨htop.doc, Or.inl (hA2.congr rfl rfl rfl rfl rfl), ?_⟩
      intro a' ha'
      simp at ha'
      subst ha'
      refine ⟨hA2.congr rfl rfl rfl rfl rfl, F, A ++ [⟨.atom .attributes, b.spanStart⟩], m, ?_, by simp, g3, g4, g5.forest.append hfor, ?_⟩
      · simp only [g1]; simp
      · intro e he
        rcases List.mem_append.1 he with he | he
        · exact g5.attrs e he
        · simp at he; rw [he]
    | none =>
      simp only
      have : csub (p1.events ++ [(⟨.atom .attributes, b.spanStart⟩ : Event)]).length 1 = .ok p1.events.length := by
        unfold csub; rw [if_pos (by simp)]; simp
      rw [this]
      obtain ⟨E, F, g1, g2, g3⟩ := hA.ev
      rw [g1.nil] at g2
      refine Sat.ok ⟨hb.cnt, hb.cntLe, by simp only [hsec]; omega, st, E0, lo, ?_⟩
      simp only [hstop]
      refine ⟨htop.doc, Or.inl (hA2.congr rfl rfl rfl rfl rfl), ?_⟩
      intro a' ha'
      simp at ha'
      subst ha'
      refine ⟨hA2.congr rfl rfl rfl rfl rfl, F, [⟨.atom .attributes, b.spanStart⟩], b.spanStart.start, ?_, by simp, by rw [g2], g3, hfor, ?_⟩
      · simp only [g2]
      · intro e he
        simp at he; rw [he]
  · -- heading
    have hhead : b.kind.isHeading = true := by
      cases hh : b.kind.isHeading with
      | true => rfl
      | false => exact absurd ⟨hh, hattr⟩ hgen
    cases hkind : b.kind <;> rw [hkind] at hhead <;> simp [Kind.isHeading] at hhead
    rename_i level
    have hA := hready.lvlA (by rw [hkind]; rfl)
    simp only [mkBlock]
    split
    case isFalse =>
      refine Sat.error (Or.inl ⟨rfl, ?_⟩)
      have hkok := hb.kind
      unfold KOk at hkok
      rw [hkind] at hkok
      simp only at hkok
      refine infix_of_slice hkok.2.2 ?_
      omega
    rename_i hlev
    have hnode : NodeOk src b.spanStart (.leaf (.heading level true (b.spanStart.start % 4294967296))) := by
      have hkok := hb.kind
      unfold KOk at hkok
      rw [hkind] at hkok
      simp only at hkok
      obtain ⟨a, o, h1, h2, h3, -⟩ := hb.begins.inv (by rw [hkind]; simp)
      rw [hkind] at h3
      cases h3
      exact ⟨by omega, rfl, a, h1, h2⟩
    refine Sat.bind (P := fun x => x = .leaf (.heading level true (b.spanStart.start % 4294967296))) (Sat.ok rfl) ?_
    intro blk hblk
    subst hblk
    unfold TP.emit
    rw [hkind]
    refine Sat.bind (P := fun p2 => p2.openSections.length ≤ p.openSections.length + 1 ∧
        ∃ st' E0' lo', Top src b.spanEnd.stop { p2 with attrStart := none } st' E0' lo') ?_ ?_
    · unfold TP.parseLeaf
      refine Sat.bind (Sat.lift (leafLines_ok hA.src_eq hs hb.lines)) ?_
      intro ls' hls'
      unfold TP.leafSections
      refine Sat.bind (Sat.lift (sections_ok htop hA hlev (Nat.le_refl _) hb.ss.at_start)) ?_
      intro p2 ⟨E, F, S, A, st', m0, m1, u, m2, m3, secs, g1, g2, g3, g4, g5, g6, g7, g8, g9, g10, g11, g12, g13⟩
      rw [emit_leaf]
      have hseg := leafSeg_ok (leaf := .heading level true (b.spanStart.start % 4294967296)) hb.ss hb.se hnode hls'
      have hdoc := OpenDoc.sec g2 g3 g4 g5 (e := ⟨.enter (.container (.section (b.spanStart.start % 4294967296))), ⟨b.spanStart.start, b.spanStart.start⟩⟩)
        (pos := b.spanStart.start % 4294967296) ⟨rfl, trivial, hb.ss.at_start, g6⟩ rfl g7 g8 hseg
      refine Sat.ok ⟨by simp only [g1, List.length_cons]; rw [← hsec]; omega, (E ++ F ++ S ++ A).length :: st', E ++ F ++ S ++ A ++ ⟨.enter (.container (.section (b.spanStart.start % 4294967296))), ⟨b.spanStart.start, b.spanStart.start⟩⟩ ::
        (⟨.enter (.leaf (.heading level true (b.spanStart.start % 4294967296))), b.spanStart⟩ ::
        (ls'.filter (fun l => !l.isEmpty)).map (fun l => (⟨.inline, l⟩ : Event)) ++ [⟨.exit (.leaf (.heading level true (b.spanStart.start % 4294967296))), b.spanEnd⟩]),
        b.spanEnd.stop, ?_⟩
      refine ⟨?_, Or.inl ⟨by simp, g11, rfl, g10, g12, _, [], .refl _ _, ?_, .nil (Nat.le_refl _)⟩, ?_⟩
      · simp only [g1]; exact hdoc
      · simp [g9]
      · intro a ha; simp at ha
    · intro p2 ⟨hlen, st', E0', lo', h2⟩
      unfold TP.setAttrStart
      simp only [reduceCtorEq, if_false]
      refine Sat.ok ⟨hb.cnt, hb.cntLe, hlen, st', E0', lo', ?_⟩
      simp only [hstop]
      exact h2

theorem parseTop_ok (hs : Safe src) : ∀ (fuel : Nat) {hi : Nat} {p : TP} {st : List Nat} {E0 : List Event} {lo : Nat} {ls : List Span} {e : Nat},
    Top src hi p st E0 lo → LinesOk src hi ls e → Fulls src ls → 3 * weight ls + 1 ≤ fuel →
    p.openSections.length + 1 + 2 * weight ls ≤ maxDepth src →
    Sat (Allowed src) (TP.parseTop fuel p ls) (fun p' => ∃ st' E0' lo', Top src e p' st' E0' lo') := by
  intro fuel
  induction fuel with
  | zero => intro hi p st E0 lo ls e _ _ _ h; omega
  | succ fuel ih =>
    intro hi p st E0 lo ls e h hl hfu hf hd
    unfold TP.parseTop
    cases ls with
    | nil =>
      refine Sat.ok ⟨st, E0, lo, h.doc, h.lvl.mono hl.le, ?_⟩
      intro a ha
      obtain ⟨hA, F, A, m, g1, g2, g3, g4, g5⟩ := h.attr a ha
      exact ⟨hA.mono hl.le, F, A, m, g1, g2, g3, g4, g5.mono (Nat.le_refl _) hl.le⟩
    | cons first rest =>
      simp only
      cases fuel with
      | zero => simp at hf; omega
      | succ fuel =>
        refine Sat.bind (parseBlock_top hs h hl hfu (by omega) hd) ?_
        intro ⟨p1, n⟩ ⟨h1, h2, h4, st', E0', lo', h3⟩
        simp only at h1 h2 h3 h4 ⊢
        rw [if_neg (by omega)]
        have hw := weight_drop (first := first) (rest := rest) h1
        exact ih h3 (hl.take_drop n).2 (fun l hl => hfu l (List.mem_of_mem_drop hl)) (by omega) (by omega)

end

/-! ## The end -/

/-- The block events of a document. -/
structure DocShape (src : Bytes) (evs : List Event) : Prop where
  ev : ∃ F S m u, evs = ⟨.enter (.container .document), ⟨0, 0⟩⟩ :: F ++ S ++ [⟨.exit (.container .document), ⟨src.length, src.length⟩⟩] ∧
    Forest src .top 0 F m ∧ Sections src 0 65535 u m S src.length

theorem closeAllLists_ok {src : Bytes} {p : TP} {st : List Nat} {E0 : List Event} {lo : Nat} (h : Top src src.length p st E0 lo)  :
    Sat Never (p.closeAllLists src.length p.openLists) (fun p' => LvlA src .top p'.openSections E0 st [] lo src.length p' ∧
      OpenDoc src p'.openSections st E0 lo) := by
  have hsp : SpanOk src ⟨src.length, src.length⟩ := .empty (Nat.le_refl _) (by simp)
  rcases h.lvl with hA | hB
  · rw [hA.lists_eq]
    exact Sat.ok ⟨hA.congr rfl rfl rfl (by simp [hA.lists_eq]) rfl, h.doc⟩
  · obtain ⟨l, h1, h2, h3, h4, h5, hcl⟩ := hB.closeList (Nat.le_refl _) hsp
    rw [h1]
    unfold TP.closeAllLists
    refine Sat.bind (hcl { p with openLists := [] } rfl rfl rfl rfl rfl) ?_
    intro q hq
    have h' : LvlA src .top q.openSections E0 st [] lo src.length q := by rw [hq.secs_eq]; exact hq
    refine Sat.ok ⟨h'.congr rfl rfl rfl (by simp [hq.lists_eq]) rfl, ?_⟩
    simp only [hq.secs_eq]
    exact h.doc

theorem exitN_ok {src : Bytes} {secs : List Nat} : ∀ {p : TP} {E F S : List Event} {m0 m1 u : Nat},
    p.events = E ++ F ++ S → OpenDoc src secs p.open_ E m0 → Forest src .top m0 F m1 →
    Sections src (lowest secs) 65535 u m1 S src.length →
    Sat Never (p.exitN ⟨src.length, src.length⟩ secs.length) (fun p' => ∃ E F S m0 m1 u, p'.events = E ++ F ++ S ∧
      OpenDoc src [] p'.open_ E m0 ∧ Forest src .top m0 F m1 ∧ Sections src 0 65535 u m1 S src.length) := by
  have hsp : SpanOk src ⟨src.length, src.length⟩ := .empty (Nat.le_refl _) (by simp)
  induction secs with
  | nil =>
    intro p E F S m0 m1 u h1 h2 h3 h4
    exact Sat.ok ⟨E, F, S, m0, m1, u, h1, h2, h3, h4⟩
  | cons n secs ih =>
    intro p E F S m0 m1 u h1 h2 h3 h4
    obtain ⟨o, st', q, sp, E', F', S', k0, k1, hst, hget, heq, hd', hF', hS'⟩ := h2.close h3 h4 (Nat.le_refl _) hsp
    rw [List.length_cons, TP.exitN]
    have hexit : p.exit ⟨src.length, src.length⟩ =
        .ok { p with open_ := st', events := p.events ++ [⟨.exit (.container (.section q)), ⟨src.length, src.length⟩⟩] } := by
      unfold TP.exit TP.enterNode idx
      rw [hst]
      simp only
      have hlt : o < E.length := (List.getElem?_eq_some_iff.1 hget).1
      rw [h1, List.append_assoc, List.getElem?_append_left hlt, hget]
      rfl
    rw [hexit]
    simp only [Bind.bind, Except.bind]
    exact ih (p := { p with open_ := st', events := p.events ++ [⟨.exit (.container (.section q)), ⟨src.length, src.length⟩⟩] })
      (by simp only [h1]; exact heq) hd' hF' hS'

theorem tiles_linesOk {src : Bytes} {ls : List Span} {a b : Nat} (h : Tiles a b ls) (hb : ∀ l ∈ ls, SpanOk src l)
    (hn : ∀ l ∈ ls, NlStop src l.stop) : LinesOk src a ls b := by
  induction ls generalizing a with
  | nil => unfold Tiles at h; exact .nil (by omega)
  | cons l ls ih =>
    obtain ⟨h1, h2, h3⟩ := h
    exact .cons (hb l (by simp)) (by omega) (hn l (by simp)) (ih h3 (fun m hm => hb m (by simp [hm])) (fun m hm => hn m (by simp [hm])))

theorem tiles_weight {ls : List Span} {a b : Nat} (h : Tiles a b ls) : weight ls ≤ 2 * (b - a) ∧ a ≤ b := by
  induction ls generalizing a with
  | nil => unfold Tiles at h; simp; omega
  | cons l ls ih =>
    obtain ⟨h1, h2, h3⟩ := h
    have := ih h3
    simp [Span.len]
    omega

theorem bd_of_isBoundary {s : Bytes} {n : Nat} (hs : Bd s) (h : isBoundary s n = true) : Bd (s.drop n) := by
  unfold isBoundary at h
  intro c hc
  rw [List.head?_drop] at hc
  rw [hc] at h
  simp at h
  rcases h with h | h
  · subst h; exact hs c (by rw [List.head?_eq_getElem?]; exact hc)
  · exact h

theorem lineLen_firstLine (s : Bytes) : s.take (lineLen s) = Syntax.firstLine s := by
  induction s with
  | nil => rfl
  | cons c s ih =>
    rw [lineLen, Syntax.firstLine]
    split
    · rfl
    · rw [Nat.add_comm, List.take_succ_cons, ih]

theorem linesFrom_full {src : Bytes} : ∀ (n start : Nat) (s : Bytes), s.length = n → src.drop start = s → Fulls src (linesFrom start s) := by
  intro n
  induction n using Nat.strongRecOn with
  | _ n ih =>
    intro start s hn hd
    unfold linesFrom
    cases s with
    | nil => intro l hl; cases hl
    | cons c s =>
      simp only
      have hpos := lineLen_pos (s := c :: s) (by simp)
      intro l hl
      rcases List.mem_cons.1 hl with rfl | hl
      · unfold Full sliceOf
        simp only
        rw [hd, Nat.add_sub_cancel_left]
        exact lineLen_firstLine _
      · refine ih _ ?_ _ _ rfl ?_ l hl
        · rw [List.length_drop, hn]; simp at hn; omega
        · rw [← List.drop_drop, hd]

theorem lines_full (src : Bytes) : Fulls src (lines src) := linesFrom_full _ 0 src rfl rfl

/-- `TreeParser::parse`: the only panics are those of the checked conversions to `u16`. -/
theorem parse_shape {src : Bytes} (hu : Utf8 src) : Sat (Allowed src) (parse src) (DocShape src) := by
  have hlines := C28_lines_partition src
  have hb := C28_lines_on_char_boundaries src hu
  have hok : ∀ l ∈ lines src, SpanOk src l := by
    intro l hl
    have h1 := hb l hl
    have h2 := (hlines.2 l hl).1
    have h3 : l.start ≤ l.stop := by
      have : ∀ (ls : List Span) (a b : Nat), Tiles a b ls → ∀ l ∈ ls, l.start ≤ l.stop := by
        intro ls
        induction ls with
        | nil => simp
        | cons m ls ih =>
          intro a b ht l hl
          rcases List.mem_cons.1 hl with rfl | hl
          · exact Nat.le_of_lt ht.2.1
          · exact ih _ _ ht.2.2 l hl
      exact this _ _ _ hlines.1 l hl
    exact ⟨h3, h2, bd_of_isBoundary hu.bd h1.1, bd_of_isBoundary hu.bd h1.2⟩
  have hnl : ∀ l ∈ lines src, NlStop src l.stop := by
    intro l hl
    have h3 : l.start < l.stop := by
      have : ∀ (ls : List Span) (a b : Nat), Tiles a b ls → ∀ l ∈ ls, l.start < l.stop := by
        intro ls
        induction ls with
        | nil => simp
        | cons m ls ih =>
          intro a b ht l hl
          rcases List.mem_cons.1 hl with rfl | hl
          · exact ht.2.1
          · exact ih _ _ ht.2.2 l hl
      exact this _ _ _ hlines.1 l hl
    rcases (hlines.2 l hl).2.2 with h | h
    · exact Or.inl h
    · exact Or.inr ⟨by omega, h⟩
  have hl := tiles_linesOk hlines.1 hok hnl
  have hw := (tiles_weight hlines.1).1
  unfold parse
  simp only
  have htop : Top src 0 (({ src := src } : TP).enter (.container .document) ⟨0, 0⟩) [0] [⟨.enter (.container .document), ⟨0, 0⟩⟩] 0 := by
    refine ⟨.doc rfl, Or.inl ⟨by simp, rfl, rfl, rfl, rfl, _, [], .refl _ _, rfl, .nil (Nat.le_refl _)⟩, ?_⟩
    intro a ha
    simp [TP.enter] at ha
  refine Sat.bind (parseTop_ok hu.safe _ htop hl (lines_full src) (by unfold parseFuel; omega) (by simp only [TP.enter, List.length_nil]; unfold maxDepth; omega)) ?_
  intro p1 ⟨st, E0, lo, h1⟩
  refine Sat.bind (Sat.lift (closeAllLists_ok h1)) ?_
  intro p2 ⟨hA, hd⟩
  obtain ⟨E, F, g1, g2, g3⟩ := hA.ev
  rw [g1.nil] at g2
  refine Sat.bind (Sat.lift (exitN_ok (E := E0) (F := F) (S := []) (u := 65535) (m1 := src.length) (by rw [g2]; simp) (by rw [hA.open_eq]; exact hd) g3 (.nil (Nat.le_refl _)))) ?_
  intro p3 ⟨E, F, S, m0, m1, u, k1, k2, k3, k4⟩
  generalize hsec : ([] : List Nat) = secs at k2
  generalize ho : p3.open_ = op at k2
  cases k2 with
  | sec => simp at hsec
  | doc he =>
    subst he
    have hexit : p3.exit ⟨src.length, src.length⟩ = .ok { p3 with
        open_ := []
        events := p3.events ++ [⟨.exit (.container .document), ⟨src.length, src.length⟩⟩] } := by
      unfold TP.exit TP.enterNode idx
      rw [ho, k1]
      rfl
    rw [hexit]
    simp only [Bind.bind, Except.bind, dassert, List.isEmpty_nil, if_true]
    refine Sat.ok ⟨F, S, m1, u, ?_, k3, k4⟩
    simp [k1]

end Jotdown.Block
