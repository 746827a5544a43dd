import Verif.Proofs.Level
import Verif.Props.Numbers
/-! # Helper lemmas: list bookkeeping, leaves -/
namespace Jotdown.Block
open Jotdown

theorem ListType.continues_start {a b : ListType} (ha : TyOk a) (hb : TyOk b) :
    Sat Never (a.continues b) (fun r => ∀ x y, r = some (x, y) → (TyOk x ∧ TyOk y) ∧
      (x = a ∨ ∃ n s n', a = .ordered n s ∧ x = .ordered n' s ∧ Numbers.LetterReading n n')) := by
  obtain ⟨r, hr, hs⟩ := Numbers.C23_list_continuation a b (by rintro n s rfl; exact ha) (by rintro n s rfl; exact hb)
  have h1 := ListType.continues_ok ha hb
  rw [hr] at h1 ⊢
  refine Sat.ok fun x y hxy => ⟨h1 x y hxy, ?_⟩
  rcases (hs x y).1 hxy with h | ⟨n, m, s, n', g1, g2, g3, g4, g5, g6⟩ | ⟨n, m, s, m', g1, g2, g3, g4, g5, g6⟩
  · exact Or.inl h.2.1
  · exact Or.inr ⟨n, s, n', g1, g5, g3⟩
  · exact Or.inl g5

/-- Reading the first numeral of a list as a letter. -/
theorem nodeOk_letter {src : Bytes} {sp : Span} {n n' : ListNumber} {s : NumStyle} {t : Bool}
    (h : NodeOk src sp (.container (.list (.ordered n s) t))) (hr : Numbers.LetterReading n n') :
    NodeOk src sp (.container (.list (.ordered n' s) t)) := by
  obtain ⟨b, o, h1, h2⟩ := h
  refine ⟨b, o, h1, ?_⟩
  cases h2 with
  | ordered => exact .letter hr
  | letter h3 =>
    obtain ⟨d, -, -, -, h4⟩ := h3
    obtain ⟨d', -, -, -, h5⟩ := hr
    rcases h4 with ⟨-, h4⟩ | ⟨-, h4⟩ <;> rcases h5 with ⟨h5, -⟩ | ⟨h5, -⟩ <;> simp_all

section
variable {src : Bytes} {cx : Cx} {secs : List Nat} {E0 : List Event} {st : List Nat} {lists : List OpenList} {lo hi : Nat} {p : TP}

/-- The list type of a list item. -/
def KindTy (k : Kind) : Prop := ∀ i ty lb, k = .listItem i ty lb → TyOk ty

theorem maybeCloseList_ok (h : Lvl src cx secs E0 st lists lo hi p) (hc : CtxOk E0 st lists) {k : Kind} (hk : KindTy k)
    {pos : Nat} (hpos : hi ≤ pos) (hsp : SpanOk src ⟨pos, pos⟩) :
    Sat Never (p.maybeCloseList k pos) (fun p' => LvlA src cx secs E0 st lists lo pos p' ∨
      (LvlB src cx secs E0 st lists lo pos p' ∧ k.isListItem = true)) := by
  unfold TP.maybeCloseList
  rcases h with h | h
  · have h' : LvlA src cx secs E0 st lists lo pos p := h.mono hpos
    rw [h.lists_eq]
    cases lists with
    | nil => exact Sat.ok (Or.inl h')
    | cons l ls =>
      have h1 := (hc l (by simp)).1
      simp only
      have : dassert (decide (l.depth ≤ p.open_.length)) = .ok () := by
        unfold dassert; rw [if_pos (by rw [h.open_eq]; simp; omega)]
      rw [this]
      simp only [Bind.bind, Except.bind]
      rw [if_neg (by rw [h.open_eq]; omega)]
      exact Sat.ok (Or.inl h')
  · obtain ⟨l, h1, h2, h3, h4, h5, hcl⟩ := h.closeList hpos hsp
    rw [h1]
    simp only
    have : dassert (decide (l.depth ≤ p.open_.length)) = .ok () := by
      unfold dassert; rw [if_pos (by simp; omega)]
    rw [this]
    simp only [Bind.bind, Except.bind]
    rw [if_pos (by omega)]
    have hcont : Sat Never (listContinues l k) (fun r => ∀ l', r = some l' → k.isListItem = true ∧
        l'.depth = l.depth ∧ l'.event = l.event ∧ TyOk l'.tyPrev ∧ ∀ sp, ListAt src sp l → ListAt src sp l') := by
      unfold listContinues
      cases k
      case listItem i ty lb =>
        simp only
        refine Sat.bind (ListType.continues_start h5 (hk i ty lb rfl)) ?_
        intro r hr
        cases r with
        | none => exact Sat.ok (by simp)
        | some r =>
          obtain ⟨x, y⟩ := r
          obtain ⟨⟨hx, hy⟩, hst⟩ := hr x y rfl
          refine Sat.ok ?_
          intro l' hl'
          simp at hl'
          subst hl'
          refine ⟨rfl, rfl, rfl, hy, fun sp hsp => ?_⟩
          unfold ListAt
          simp only
          split
          · rename_i heq
            refine ⟨hx, ?_⟩
            rcases hst with rfl | ⟨n, s, n', g1, rfl, g3⟩
            · rw [← heq]; exact hsp.2
            · refine nodeOk_letter ?_ g3
              rw [← g1, ← heq]; exact hsp.2
          · exact hsp
      all_goals exact Sat.ok (by simp)
    refine Sat.bind hcont ?_
    intro r hr
    cases r with
    | none =>
      exact (hcl { p with openLists := lists } rfl rfl rfl rfl rfl).mono (fun _ h => Or.inl h)
    | some l' =>
      obtain ⟨hk', hd, he, ht2, ht1⟩ := hr l' rfl
      refine Sat.ok (Or.inr ⟨?_, hk'⟩)
      obtain ⟨E, F, e, G, l0, ty, t, m, g1, g2, g3, g4, g5, g6, g7, g8, g9, g10, g11⟩ := h.ev
      rw [h1] at g4
      simp at g4
      subst g4
      exact ⟨h.cx_ne, h.src_eq, h.secs_eq, E, F, e, G, l', ty, t, m, g1, g2, g3, rfl, he.trans g5, hd.trans g6, ht1 _ g7, ht2, g9,
        g10, g11.mono (Nat.le_refl _) hpos⟩

theorem events_length (h : Lvl src cx secs E0 st lists lo hi p) : E0.length ≤ p.events.length := by
  rcases h with h | h
  · obtain ⟨E, F, h1, h2, _⟩ := h.ev
    rw [h2, List.length_append, h1.1]; omega
  · obtain ⟨E, F, e, G, l, ty, t, m, h1, h2, _⟩ := h.ev
    rw [h2, List.length_append, List.length_append, h1.1]; omega

theorem list_event_lt (h : Lvl src cx secs E0 st lists lo hi p) (hc : CtxOk E0 st lists) :
    ∀ l ∈ p.openLists, l.event < p.events.length := by
  have hlen := events_length h
  rcases h with h | h
  · rw [h.lists_eq]; intro l hl; have := (hc l hl).2; omega
  · obtain ⟨E, F, e, G, l, ty, t, m, h1, h2, h3, h4, h5, _⟩ := h.ev
    rw [h4]
    intro l' hl'
    rcases List.mem_cons.1 hl' with rfl | hl'
    · rw [h5, h2]; simp
    · have := (hc l' hl').2; omega

theorem setLoose_ok (h : Lvl src cx secs E0 st lists lo hi p) (hc : CtxOk E0 st lists) {l : OpenList} (hl : l ∈ p.openLists) :
    Sat Never (p.setLoose l) (fun p' => Lvl src cx secs E0 st lists lo hi p' ∧ (LvlA src cx secs E0 st lists lo hi p →
      LvlA src cx secs E0 st lists lo hi p')) := by
  unfold TP.setLoose
  have hlt := list_event_lt h hc l hl
  have hi : idx p.events l.event = .ok (p.events[l.event]) := by
    unfold idx; rw [List.getElem?_eq_getElem hlt]
  rw [hi]
  simp only [Bind.bind, Except.bind]
  split
  · rename_i ty hk
    have ht : Tight p.openLists p.events
        (p.events.set l.event { p.events[l.event] with kind := .enter (.container (.list ty false)) }) := by
      refine ⟨by simp, fun i => ?_⟩
      by_cases hi : l.event = i
      · right
        subst hi
        refine ⟨⟨l, hl, rfl⟩, ty, true, false, p.events[l.event].span, ?_, ?_⟩
        · rw [List.getElem?_eq_getElem hlt, ← hk]
        · rw [List.getElem?_set_self hlt]
      · left
        rw [List.getElem?_set_ne hi]
    refine Sat.ok ⟨?_, fun hA => ?_⟩
    · exact (h.retight hc ht).congr rfl rfl rfl rfl rfl
    · exact (hA.retight hc ht).congr rfl rfl rfl rfl rfl
  · exact Sat.ok ⟨h, id⟩

theorem setLoose_attr (p : TP) (l : OpenList) :
    Sat (fun _ => True) (p.setLoose l) (fun p' => p'.attrStart = p.attrStart) := by
  unfold TP.setLoose
  refine Sat.bind (P := fun _ => True) (by cases idx _ _ <;> trivial) ?_
  intro e _
  split <;> exact Sat.ok rfl

theorem Sat.and_any {α : Type} {x : R α} {P Q : α → Prop} (h : Sat Never x P) (h' : Sat (fun _ => True) x Q) :
    Sat Never x (fun a => P a ∧ Q a) := by
  cases x with
  | ok a => exact ⟨h, h'⟩
  | error e => exact absurd h (by simp [Sat])

theorem looseAfterBlank_ok (h : Lvl src cx secs E0 st lists lo hi p) (hc : CtxOk E0 st lists) (k : Kind) :
    Sat Never (p.looseAfterBlank k) (fun p' => Lvl src cx secs E0 st lists lo hi p' ∧ (LvlA src cx secs E0 st lists lo hi p →
      LvlA src cx secs E0 st lists lo hi p') ∧ p'.attrStart = p.attrStart) := by
  unfold TP.looseAfterBlank
  split
  · rename_i l ls hb hl
    split
    · refine Sat.mono (Sat.and_any (setLoose_ok h hc (l := l) (by simp [hl])) (setLoose_attr p l)) ?_
      intro p' hp
      exact ⟨hp.1.1, hp.1.2, hp.2⟩
    · exact Sat.ok ⟨h, id, rfl⟩
  · exact Sat.ok ⟨h, id, rfl⟩

theorem updateLoose_ok (h : Lvl src cx secs E0 st lists lo hi p) (hc : CtxOk E0 st lists) (k : Kind) :
    Sat Never (p.updateLoose k) (fun p' => Lvl src cx secs E0 st lists lo hi p' ∧ (LvlA src cx secs E0 st lists lo hi p →
      LvlA src cx secs E0 st lists lo hi p') ∧ p'.attrStart = p.attrStart) := by
  unfold TP.updateLoose
  split
  · exact Sat.ok ⟨h.congr rfl rfl rfl rfl rfl, fun h => h.congr rfl rfl rfl rfl rfl, rfl⟩
  · have h' : Lvl src cx secs E0 st lists lo hi { p with prevLoose := false } := h.congr rfl rfl rfl rfl rfl
    refine Sat.bind (looseAfterBlank_ok h' hc k) ?_
    intro p' hp'
    exact Sat.ok ⟨hp'.1.congr rfl rfl rfl rfl rfl,
      fun h => (hp'.2.1 (h.congr rfl rfl rfl rfl rfl)).congr rfl rfl rfl rfl rfl, hp'.2.2⟩

/-- The state when a block is about to be emitted. -/
def Ready (src : Bytes) (cx : Cx) (secs : List Nat) (E0 : List Event) (st : List Nat) (lists : List OpenList) (lo hi : Nat)
    (k : Kind) (p : TP) : Prop :=
  LvlA src cx secs E0 st lists lo hi p ∨ (LvlB src cx secs E0 st lists lo hi p ∧ k.isListItem = true)

theorem closeList_attr (p : TP) (l : OpenList) (pos : Nat) :
    Sat (fun _ => True) (p.closeList l pos) (fun p' => p'.attrStart = p.attrStart) := by
  unfold TP.closeList
  refine Sat.bind (P := fun _ => True) (by cases idx _ _ <;> trivial) ?_
  intro e _
  split
  · simp only
    unfold TP.exit
    split
    · exact trivial
    · refine Sat.bind (P := fun _ => True) (by unfold TP.enterNode; simp only; cases idx _ _ <;> simp only [Bind.bind, Except.bind]; · exact trivial
                                               · split <;> exact trivial) ?_
      intro _ _
      exact Sat.ok rfl
  · exact trivial

theorem maybeCloseList_attr (p : TP) (k : Kind) (pos : Nat) :
    Sat (fun _ => True) (p.maybeCloseList k pos) (fun p' => p'.attrStart = p.attrStart) := by
  unfold TP.maybeCloseList
  split
  · exact Sat.ok rfl
  · refine Sat.bind (P := fun _ => True) (by unfold dassert; split <;> trivial) ?_
    intro _ _
    split
    · refine Sat.bind (P := fun _ => True) (by cases listContinues _ _ <;> trivial) ?_
      intro r _
      cases r with
      | some l => exact Sat.ok rfl
      | none =>
        simp only
        exact closeList_attr _ _ _
    · exact Sat.ok rfl

theorem beforeBlock_ok (h : Lvl src cx secs E0 st lists lo hi p) (hc : CtxOk E0 st lists) {b : Prepared}
    (hk : KindTy b.kind) (hpos : hi ≤ b.spanStart.start) (hsp : SpanOk src b.spanStart) :
    Sat Never (p.beforeBlock b) (fun p' => Ready src cx secs E0 st lists lo b.spanStart.start b.kind p' ∧
      p'.attrStart = p.attrStart) := by
  unfold TP.beforeBlock
  have h1 := maybeCloseList_ok h hc hk hpos hsp.at_start
  have h2 : Sat Never (p.maybeCloseList b.kind b.spanStart.start) (fun p' => p'.attrStart = p.attrStart) := by
    obtain ⟨p', hp', -⟩ := h1.exists_ok
    rw [hp']
    exact Sat.ok ((maybeCloseList_attr p b.kind b.spanStart.start).of_ok hp')
  refine Sat.bind (h1.and h2) ?_
  intro p1 ⟨hp1, ha⟩
  rcases hp1 with hA | ⟨hB, hli⟩
  · exact (updateLoose_ok (Or.inl hA) hc b.kind).mono (fun p' hp => ⟨Or.inl (hp.2.1 hA), by rw [hp.2.2, ha]⟩)
  · exact (updateLoose_ok (Or.inr hB) hc b.kind).mono (fun p' hp => ⟨hp.1.imp id (⟨·, hli⟩), by rw [hp.2.2, ha]⟩)

/-! ## Leaves -/

theorem fenceLine_ok {indent : Nat} {sp : Span} (h : SpanOk src sp) (hs : Safe src) :
    Sat Never (fenceLine src indent sp) (fun r => SubSpan src sp r ∧ r.stop = sp.stop) := by
  unfold fenceLine
  have hbsl : byteSlice src sp.start sp.stop = .ok (sliceOf src sp) := by
    unfold byteSlice sliceOf; rw [if_pos ⟨h.le, h.len⟩]
  rw [hbsl]
  have hbs := sliceOf_bd_safe h hs
  have hcl := Lex.countWhile_le (fun c => c != c! '\n' && isWs c) (sliceOf src sp)
  rw [sliceOf_length h] at hcl
  refine Sat.ok ⟨⟨h.advance (by omega) ?_, by simp, by simp⟩, rfl⟩
  cases hn : min indent (Lex.countWhile (fun c => c != c! '\n' && isWs c) (sliceOf src sp)) with
  | zero => simpa using hbs.1
  | succ n =>
    obtain ⟨c, hc, hpc⟩ := countWhile_lt_get (p := fun c => c != c! '\n' && isWs c) (s := sliceOf src sp) (i := n) (by omega)
    simp at hpc
    exact Safe.bd_after hbs.2 hc (isWs_lt hpc.2)

theorem leafLines_ok (hsrc : p.src = src) (hs : Safe src) {leaf : Leaf} {k : Kind} {ls : List Span} {lo hi : Nat}
    (h : LinesOk src lo ls hi) : Sat Never (p.leafLines leaf k ls) (fun r => LeafLines src leaf.isFed lo r hi) := by
  subst hsrc
  unfold TP.leafLines
  split
  · refine Sat.bind (mapLines_sub (fun sp hsp => fenceLine_ok hsp hs) h) ?_
    intro r hr
    split
    · exact trimLast_ok hr.1.leaf
    · exact Sat.ok hr.1.leaf
  · refine Sat.bind (mapLines_sub (f := p.trimStart) (fun sp hsp => (TP.trimStart_ok hsp hs).mono (fun _ h => ⟨h.2, by rw [h.1]⟩)) h) ?_
    intro r hr
    have hr1 : LinesOk p.src lo (skipEmptyFirst r) hi := by
      have h1 := hr.1
      unfold skipEmptyFirst
      split
      · split
        · cases h1 with
          | cons s hl _ h => exact h.mono (by have := s.le; omega) (Nat.le_refl _)
        · exact h1
      · exact h1
    refine Sat.bind (P := fun r2 => LeafLines p.src leaf.isFed lo r2 hi) ?_ ?_
    · unfold TP.trimEndsOf
      split
      · exact mapLines_trim (f := p.trimEnd) (fun sp hsp => (TP.trimEnd_ok hsp).mono (fun _ h => h.2)) hr1.leaf
      · exact Sat.ok hr1.leaf
    · intro r2 h2
      exact trimLast_ok h2

theorem foldl_inline (p : TP) (ls : List Span) :
    ls.foldl TP.inline p = { p with events := p.events ++ ls.map (fun l => (⟨.inline, l⟩ : Event)) } := by
  induction ls generalizing p with
  | nil => simp
  | cons l ls ih => rw [List.foldl_cons, ih]; simp [TP.inline]

/-- Emitting a leaf appends its events. -/
theorem emit_leaf (p : TP) (leaf : Leaf) (spanStart spanEnd : Span) (ls : List Span) :
    ((p.enter (.leaf leaf) spanStart).inlines ls).exit spanEnd =
      .ok { p with events := p.events ++ (⟨.enter (.leaf leaf), spanStart⟩ ::
        (ls.filter (fun l => !l.isEmpty)).map (fun l => (⟨.inline, l⟩ : Event)) ++ [⟨.exit (.leaf leaf), spanEnd⟩]) } := by
  unfold TP.inlines
  rw [foldl_inline]
  unfold TP.exit TP.enter TP.enterNode
  simp only [List.append_assoc, List.cons_append, List.nil_append, idx_append, Bind.bind, Except.bind, pure, Except.pure]

theorem leafSeg_ok {leaf : Leaf} {spanStart spanEnd : Span} {ls : List Span} (h1 : SpanOk src spanStart)
    (h2 : SpanOk src spanEnd) (hn : NodeOk src spanStart (.leaf leaf)) (h : LeafLines src leaf.isFed spanStart.stop ls spanEnd.start) :
    LeafSeg src leaf spanStart.start (⟨.enter (.leaf leaf), spanStart⟩ ::
        (ls.filter (fun l => !l.isEmpty)).map (fun l => (⟨.inline, l⟩ : Event)) ++ [⟨.exit (.leaf leaf), spanEnd⟩]) spanEnd.stop :=
  .mk ⟨rfl, hn, h1, Nat.le_refl _⟩ (linesOk_inl (h.filter _)) ⟨rfl, h2⟩ (Nat.le_refl _)

/-- A leaf that does not open a section. -/
theorem parseLeaf_ok (h : LvlA src cx secs E0 st lists lo hi p) (hs : Safe src) {leaf : Leaf} {k : Kind} {spanStart spanEnd : Span}
    {ls : List Span} (h1 : SpanOk src spanStart) (h2 : SpanOk src spanEnd) (hlo : hi ≤ spanStart.start)
    (hl : LinesOk src spanStart.stop ls spanEnd.start) (hleaf : LeafOk cx spanStart leaf) (hn : NodeOk src spanStart (.leaf leaf)) :
    Sat Never (p.parseLeaf leaf k spanStart spanEnd ls) (LvlA src cx secs E0 st lists lo spanEnd.stop) := by
  unfold TP.parseLeaf
  refine Sat.bind (leafLines_ok h.src_eq hs hl) ?_
  intro ls' hl'
  have hns : p.leafSections leaf k spanStart.start = .ok p := by
    unfold TP.leafSections
    split
    · have := hleaf.2.1; simp at this
    · rfl
  rw [hns]
  simp only [show ∀ (f : TP → R TP), (Except.ok p >>= f) = f p from fun _ => rfl, emit_leaf]
  refine Sat.ok ?_
  have hF : Forest src cx hi (⟨.enter (.leaf leaf), spanStart⟩ ::
        (ls'.filter (fun l => !l.isEmpty)).map (fun l => (⟨.inline, l⟩ : Event)) ++ [⟨.exit (.leaf leaf), spanEnd⟩]) spanEnd.stop :=
    .leaf (e := ⟨.enter (.leaf leaf), spanStart⟩) ⟨rfl, hn, h1, hlo⟩ hleaf (linesOk_inl (hl'.filter _)) ⟨rfl, h2⟩ (.nil (Nat.le_refl _))
  exact h.append hF

end

end Jotdown.Block
