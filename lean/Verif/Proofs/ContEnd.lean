import Verif.Proofs.Container
/-! # Containers: the end -/
namespace Jotdown.Block
open Jotdown

section
variable {src : Bytes} {cx : Cx} {secs : List Nat} {E0 : List Event} {st : List Nat} {lists : List OpenList} {lo hi : Nat} {p : TP}

/-- The state after the term has been dealt with. -/
def Termed (src : Bytes) (cx : Cx) (secs : List Nat) (s : Nat) (c : Container) (q : TP) (hi : Nat) (p : TP) : Prop :=
  ∃ E1 X ec m, Tight q.openLists q.events E1 ∧ Forest src (outerCx cx c) s X m ∧ Enters src m ec (.container c) ∧
    Lvl src .inner secs (E1 ++ X ++ [ec]) ((E1 ++ X).length :: q.open_) q.openLists ec.span.stop hi p

theorem Termed.same {s : Nat} {c : Container} {q : TP} {X : List Event} {ec : Event} {dt : Option (Nat × Nat × Nat)}
    (hb : Begun src cx s c q X ec dt) (hq : ∀ l ∈ q.openLists, l.event < q.events.length)
    (h : Lvl src .inner secs (q.events ++ X ++ [ec]) ((q.events ++ X).length :: q.open_) q.openLists ec.span.stop hi p) :
    Termed src cx secs s c q hi p := by
  obtain ⟨m, hX, hec⟩ := hb.pre
  rcases h with h | h
  · obtain ⟨E, F, h1, h2, h3⟩ := h.ev
    rw [List.append_assoc] at h1
    obtain ⟨E1, rfl, hE1⟩ := h1.split hq
    refine ⟨E1, X, ec, m, hE1, hX, hec, Or.inl ⟨h.cx_ne, h.src_eq, h.secs_eq, ?_, h.lists_eq, _, F, .refl _ _, ?_, h3⟩⟩
    · rw [h.open_eq]; simp [hE1.1]
    · rw [h2]; simp
  · obtain ⟨E, F, e, G, l, ty, t, m', h1, h2, h3, h4, h5, h6, h7, h8, h9, h10, h11⟩ := h.ev
    rw [List.append_assoc] at h1
    obtain ⟨E1, rfl, hE1⟩ := h1.split hq
    refine ⟨E1, X, ec, m, hE1, hX, hec, Or.inr ⟨h.cx_ne, h.src_eq, h.secs_eq, E1 ++ X ++ [ec], F, e, G, l, ty, t, m', .refl _ _, ?_, ?_, h4, ?_, ?_, h7, h8, h9, h10, h11⟩⟩
    · rw [h2]; simp
    · rw [h3]; simp [hE1.1]
    · rw [h5]; simp
    · rw [h6]; simp

theorem detail_ok {lo m hi : Nat} {x : Event} {B G2 : List Event} (hx : SpanOk src x.span) (hB : Forest src cx x.span.stop B m)
    (hBok : ∀ a ∈ B, SpanOk src a.span) (hm : m = lastStop x.span.stop (B.map (·.span))) (D : List Event)
    (hD : ∀ d rest, D = d :: rest → m ≤ d.span.start ∧ SpanOk src d.span) :
    m ≤ detailPos x B D ∧ SpanOk src ⟨detailPos x B D, detailPos x B D⟩ ∧ (D = [] → detailPos x B D = m) := by
  cases D with
  | cons d D =>
    have := hD d D rfl
    exact ⟨this.1, this.2.at_start, by simp⟩
  | nil =>
    have hlast : detailPos x B [] = m ∧ SpanOk src ⟨m, m⟩ := by
      unfold detailPos
      simp only
      rcases List.eq_nil_or_concat B with h | ⟨B', b, rfl⟩
      · subst h
        simp [lastStop] at hm ⊢
        subst hm
        exact ⟨rfl, hx.at_stop⟩
      · have hq : x :: B'.concat b = (x :: B') ++ [b] := by simp
        have hg : ((x :: B'.concat b).getLast (by simp)) = b := by
          simp only [hq]; exact getLast_snoc _ _ _
        rw [hg]
        rw [List.concat_eq_append] at hm
        unfold lastStop at hm
        simp at hm
        subst hm
        exact ⟨rfl, (hBok b (by simp)).at_stop⟩
    rw [hlast.1]
    exact ⟨Nat.le_refl _, hlast.2, fun _ => rfl⟩

theorem Forest.blank_append {lo m hi : Nat} {B G : List Event} (h : Forest src cx lo B m) (h2 : Forest src cx m G hi) :
    Forest src cx lo (B ++ G) hi := h.append h2

theorem endTerm_ok {s : Nat} {c : Container} {q : TP} {X : List Event} {ec : Event} {dt : Option (Nat × Nat × Nat)}
    (hb : Begun src cx s c q X ec dt) (hq : ∀ l ∈ q.openLists, l.event < q.events.length)
    (h : Lvl src .inner secs (q.events ++ X ++ [ec]) ((q.events ++ X).length :: q.open_) q.openLists ec.span.stop hi p) :
    Sat Never (p.endTerm c dt) (Termed src cx secs s c q hi) := by
  unfold TP.endTerm
  rcases hb.term with ⟨rfl, rfl⟩ | ⟨hdesc, rfl, d1, d2, rfl, hd1, hd2, hd12⟩
  · exact Sat.ok (.same hb hq h)
  simp only
  -- the events after the container was entered
  have hshape : ∃ E1 R, Tight q.openLists q.events E1 ∧ p.events = E1 ++ d1 :: d2 :: ec :: R ∧
      ((p.open_ = (E1.length + 2) :: q.open_ ∧ p.openLists = q.openLists ∧ Forest src .inner ec.span.stop R hi) ∨
       (∃ F e G l ty t m, R = F ++ e :: G ∧ p.open_ = (E1.length + 3 + F.length) :: (E1.length + 2) :: q.open_ ∧
        p.openLists = l :: q.openLists ∧ l.event = E1.length + 3 + F.length ∧ l.depth = q.open_.length + 2 ∧
        ListAt src e.span l ∧ TyOk l.tyPrev ∧ Enters src m e (.container (.list ty t)) ∧ Forest src .inner ec.span.stop F m ∧
        Forest src .list e.span.stop G hi)) := by
    rcases h with h | h
    · obtain ⟨E, F, h1, h2, h3⟩ := h.ev
      rw [List.append_assoc] at h1
      obtain ⟨E1, rfl, hE1⟩ := h1.split hq
      refine ⟨E1, F, hE1, by rw [h2]; simp, Or.inl ⟨?_, h.lists_eq, h3⟩⟩
      rw [h.open_eq]; simp [hE1.1]
    · obtain ⟨E, F, e, G, l, ty, t, m', h1, h2, h3, h4, h5, h6, h7, h8, h9, h10, h11⟩ := h.ev
      rw [List.append_assoc] at h1
      obtain ⟨E1, rfl, hE1⟩ := h1.split hq
      refine ⟨E1, F ++ e :: G, hE1, by rw [h2]; simp, Or.inr ⟨F, e, G, l, ty, t, m', rfl, ?_, h4, ?_, ?_, h7, h8, h9, h10, h11⟩⟩
      · rw [h3]; simp [hE1.1]; omega
      · rw [h5]; simp; omega
      · rw [h6]; simp
  have hsame := Termed.same hb hq h
  obtain ⟨E1, R, hE1, hev, hR⟩ := hshape
  have hsrc : p.src = src ∧ p.openSections = secs := by
    rcases h with h | h
    · exact ⟨h.src_eq, h.secs_eq⟩
    · exact ⟨h.src_eq, h.secs_eq⟩
  have hlen : q.events.length = E1.length := hE1.1.symm
  rw [hlen]
  have hget : p.events[E1.length + 2 + 1]? = R.head? := by
    have : p.events = (E1 ++ [d1, d2, ec]) ++ R := by rw [hev]; simp
    rw [this, get_mid _ _ (by simp)]
  by_cases hfirst : ∃ e, R.head? = some e ∧ e.kind = .enter (.leaf .paragraph)
  case neg =>
    have hconv : p.convertTerm c E1.length (E1.length + 2) q.open_.length = .ok p := by
      unfold TP.convertTerm
      simp only
      rw [hget]
      cases hh : R.head? with
      | none => rfl
      | some e =>
        simp only
        rw [if_neg]
        intro hk
        exact hfirst ⟨e, hh, hk⟩
    rw [hconv]
    exact Sat.ok hsame
  obtain ⟨e, hhead, hek⟩ := hfirst
  have hs1 : SpanOk src d1.span := hd1.span
  -- `R = e :: inl ++ x :: (B ++ D)`
  have hinv : ∃ inl x B G2 tail m, R = e :: (inl ++ x :: (B ++ (G2 ++ tail))) ∧ Enters src ec.span.stop e (.leaf .paragraph) ∧
      InlChain src true e.span.stop inl x.span.start ∧ Exits src x (.leaf .paragraph) ∧
      (∀ a ∈ B, a.kind = .atom .blankline) ∧ (∀ cx', Forest src cx' x.span.stop B m) ∧ m = lastStop x.span.stop (B.map (·.span)) ∧
      (∀ a ∈ B, SpanOk src a.span) ∧ (∀ d rest, G2 ++ tail = d :: rest → d.kind ≠ .atom .blankline ∧ m ≤ d.span.start ∧ SpanOk src d.span) ∧
      ((p.open_ = (E1.length + 2) :: q.open_ ∧ p.openLists = q.openLists ∧ tail = [] ∧ Forest src .inner m G2 hi) ∨
       (∃ e' G l ty t m', tail = e' :: G ∧ p.open_ = (E1.length + 3 + (e :: (inl ++ x :: (B ++ G2))).length) :: (E1.length + 2) :: q.open_ ∧
        p.openLists = l :: q.openLists ∧ l.event = E1.length + 3 + (e :: (inl ++ x :: (B ++ G2))).length ∧ l.depth = q.open_.length + 2 ∧
        ListAt src e'.span l ∧ TyOk l.tyPrev ∧ Enters src m' e' (.container (.list ty t)) ∧ Forest src .inner m G2 m' ∧
        Forest src .list e'.span.stop G hi)) := by
    rcases hR with ⟨ho, hli, hF⟩ | ⟨F, e', G, l, ty, t, m', hRe, ho, hli, g1, g2, g3, g4, g5, g6, g7⟩
    · cases hRR : R with
      | nil => rw [hRR] at hhead; simp at hhead
      | cons e0 R' =>
        rw [hRR] at hhead hF
        simp at hhead
        subst hhead
        obtain ⟨inl, x, G, hR', he1, he2, he3, he4⟩ := hF.para hek
        obtain ⟨B, G2, m, k1, k2, k3, k4, k5, k6, k7⟩ := he4.split_blank
        refine ⟨inl, x, B, G2, [], m, by rw [hR', k1]; simp, he1, he2, he3, k2, k3, k5, k6, ?_, Or.inl ⟨ho, hli, rfl, k4⟩⟩
        intro d rest hd
        simp at hd
        refine ⟨k7 d rest hd, ?_⟩
        rw [hd] at k4
        exact ⟨k4.from_head.1, k4.from_head.2.1⟩
    · cases hFF : F with
      | nil =>
        rw [hRe, hFF] at hhead
        simp at hhead
        have := g5.kind
        rw [hhead, hek] at this
        simp at this
      | cons e0 F' =>
        rw [hRe, hFF] at hhead
        simp at hhead
        subst hhead
        rw [hFF] at g6
        obtain ⟨inl, x, G', hR', he1, he2, he3, he4⟩ := g6.para hek
        obtain ⟨B, G2, m, k1, k2, k3, k4, k5, k6, k7⟩ := he4.split_blank
        have hFeq : F = e0 :: (inl ++ x :: (B ++ G2)) := by rw [hFF, hR', k1]
        refine ⟨inl, x, B, G2, e' :: G, m, by rw [hRe, hFeq]; simp, he1, he2, he3, k2, k3, k5, k6, ?_,
          Or.inr ⟨e', G, l, ty, t, m', rfl, by rw [ho, hFeq], hli, by rw [g1, hFeq], g2, g3, g4, g5, k4, g7⟩⟩
        intro d rest hd
        cases hG2 : G2 with
        | nil =>
          rw [hG2] at hd
          simp at hd
          rw [← hd.1]
          refine ⟨by rw [g5.kind]; simp, ?_, g5.span⟩
          have := g5.lo
          rw [hG2] at k4
          have := k4.le
          omega
        | cons d' G2' =>
          rw [hG2] at hd k4
          simp at hd
          rw [← hd.1]
          exact ⟨k7 d' G2' hG2, k4.from_head.1, k4.from_head.2.1⟩
  obtain ⟨inl, x, B, G2, tail, m, hReq, he1, he2, he3, k2, k3, k5, k6, k7, hcase⟩ := hinv
  have hopen : q.open_.length < p.open_.length := by
    rcases hcase with ⟨ho, -⟩ | ⟨e', G, l, ty, t, m', -, ho, -⟩ <;> rw [ho] <;> simp <;> omega
  rw [convertTerm_eq p c E1 d1 d2 ec e inl x B (G2 ++ tail) q.open_.length (by rw [hev, hReq]) hek he2.inline he3.kind k2
    (fun d rest hd => (k7 d rest hd).1) hopen]
  obtain ⟨hp1, hp2, hp3⟩ := detail_ok (lo := 0) (hi := 0) (G2 := []) he3.span (k3 .inner) k6 k5 (G2 ++ tail) (fun d rest hd => (k7 d rest hd).2)
  refine Sat.ok ⟨E1, { d1 with kind := .stale } :: { d2 with kind := .stale } :: ⟨.enter (.leaf .descriptionTerm), d1.span⟩ ::
        (inl ++ ⟨.exit (.leaf .descriptionTerm), x.span⟩ :: B), ⟨.enter (.container c), ⟨detailPos x B (G2 ++ tail), detailPos x B (G2 ++ tail)⟩⟩, m,
        hE1, ?_, ⟨rfl, by rw [hdesc]; trivial, hp2, hp1⟩, ?_⟩
  · have := Forest.term (src := src) (cx := outerCx cx c) (lo := s) (hi := m) (s1 := { d1 with kind := .stale }) (s2 := { d2 with kind := .stale })
      (e := ⟨.enter (.leaf .descriptionTerm), d1.span⟩) (inl := inl) (x := ⟨.exit (.leaf .descriptionTerm), x.span⟩) (G := B)
      rfl ⟨rfl, by unfold outerCx; rw [hdesc]; rfl⟩ rfl ⟨rfl, hd1.node, hs1, hd1.lo⟩ (he2.mono (by
        have := he1.lo; have := he1.span.le
        obtain ⟨m0, -, hec⟩ := hb.pre
        have := hec.span.le
        simp only; omega) (Nat.le_refl _)) ⟨rfl, he3.span⟩ (k3 _)
    simpa using this
  · rcases hcase with ⟨ho, hli, rfl, hG2⟩ | ⟨e', G, l, ty, t, m', rfl, ho, hli, g1, g2, g3, g4, g5, g6, g7⟩
    · left
      refine ⟨by simp, hsrc.1, hsrc.2, ?_, hli, _, G2, .refl _ _, by simp, ?_⟩
      · simp [ho]; omega
      · cases hGG : G2 with
        | nil =>
          rw [hGG] at hG2 hp3
          refine .nil ?_
          have := hp3 rfl
          have := hG2.le
          simp only; omega
        | cons d G2' =>
          rw [hGG] at hG2
          exact hG2.from_head.2.2
    · right
      have hm : ∃ m2, Enters src m2 e' (.container (.list ty t)) ∧ Forest src .inner (detailPos x B (G2 ++ e' :: G)) G2 m2 := by
        cases hGG : G2 with
        | nil => exact ⟨e'.span.start, ⟨g5.kind, g5.node, g5.span, Nat.le_refl _⟩, .nil (Nat.le_refl _)⟩
        | cons d G2' =>
          rw [hGG] at g6
          exact ⟨m', g5, g6.from_head.2.2⟩
      obtain ⟨m2, g5', g6'⟩ := hm
      refine ⟨by simp, hsrc.1, hsrc.2, _, G2, e', G, l, ty, t, m2, .refl _ _, by simp, ?_, hli, ?_, ?_, g3, g4, g5', g6', g7⟩
      · simp [ho]; omega
      · simp [g1]; omega
      · simp [g2]

/-- Closing the list of the children. -/
theorem closeInnerList_ok (h : Lvl src cx secs E0 st lists lo hi p) (hc : CtxOk E0 st lists) {pos : Nat} (hpos : hi ≤ pos)
    (hsp : SpanOk src ⟨pos, pos⟩) : Sat Never (p.closeInnerList pos) (LvlA src cx secs E0 st lists lo pos) := by
  unfold TP.closeInnerList
  rcases h with h | h
  · have h' : LvlA src cx secs E0 st lists lo pos p := h.mono hpos
    rw [h.lists_eq]
    cases lists with
    | nil => exact Sat.ok h'
    | cons l ls =>
      have h1 := (hc l (by simp)).1
      simp only
      have : dassert (decide (l.depth ≤ p.open_.length)) = .ok () := by
        unfold dassert; rw [if_pos (by rw [h.open_eq]; simp; omega)]
      rw [this]
      simp only [Bind.bind, Except.bind]
      rw [if_neg (by rw [h.open_eq]; omega)]
      exact Sat.ok h'
  · obtain ⟨l, h1, h2, h3, h4, h5, hcl⟩ := h.closeList hpos hsp
    rw [h1]
    simp only
    have : dassert (decide (l.depth ≤ p.open_.length)) = .ok () := by
      unfold dassert; rw [if_pos (by simp; omega)]
    rw [this]
    simp only [Bind.bind, Except.bind]
    rw [if_pos (by omega)]
    exact hcl { p with prevBlankline := false, prevLoose := false, openLists := lists } rfl rfl rfl rfl rfl

/-- The end of a container: back on the outer level. -/
theorem endContainer_ok {s : Nat} {c : Container} {q : TP} {X : List Event} {ec : Event} {dt : Option (Nat × Nat × Nat)}
    (hq : QLvl src cx secs E0 st lists lo s c q) (hc : CtxOk E0 st lists)
    (hb : Begun src cx s c q X ec dt) (hok : ContOk c) (hnl : childCx c = .inner)
    (h : Lvl src .inner secs (q.events ++ X ++ [ec]) ((q.events ++ X).length :: q.open_) q.openLists ec.span.stop hi p)
    {spanEnd : Span} (hse : SpanOk src spanEnd) (hhi : hi ≤ spanEnd.start) :
    Sat Never (p.endContainer c spanEnd dt) (Lvl src cx secs E0 st lists lo spanEnd.stop) := by
  unfold TP.endContainer
  have hctx := hq.lvl.ctx hc
  refine Sat.bind (endTerm_ok hb (fun l hl => (hctx l hl).2) h) ?_
  intro p1 ⟨E1, X1, ec1, m, hE1, hX1, hec1, hl1⟩
  have hc1 : CtxOk (E1 ++ X1 ++ [ec1]) ((E1 ++ X1).length :: q.open_) q.openLists := by
    intro l hl
    have := hctx l hl
    have := hE1.1
    simp
    omega
  refine Sat.bind (closeInnerList_ok hl1 hc1 hhi hse.at_start) ?_
  intro p2 hp2
  obtain ⟨E, F, h1, h2, h3⟩ := hp2.ev
  rw [List.append_assoc] at h1
  obtain ⟨E2, rfl, hE2⟩ := h1.split (fun l hl => by have := (hctx l hl).2; rw [hE1.1]; exact this)
  have hev : p2.events = (E2 ++ X1) ++ ec1 :: F := by rw [h2]; simp
  have hlen : (E1 ++ X1).length = (E2 ++ X1).length := by simp [hE2.1]
  unfold TP.exit
  rw [hp2.open_eq]
  simp only
  unfold TP.enterNode
  rw [hev, hlen, idx_append]
  simp only [Bind.bind, Except.bind, hec1.kind, pure, Except.pure]
  have hne : cx ≠ .list := by
    rcases hq.lvl with h | h <;> exact h.cx_ne
  have hiff : c.isItem = true ↔ outerCx cx c = .list := by
    unfold outerCx
    cases c.isItem <;> simp [hne]
  have hnode := hX1.append (Forest.node (cx := outerCx cx c) (x := ⟨.exit (.container c), spanEnd⟩) (G := []) hec1 ⟨hok, hiff⟩ (hnl ▸ h3) ⟨rfl, hse⟩ (.nil (Nat.le_refl _)))
  have hfin : Lvl src cx secs E0 st lists lo spanEnd.stop
      { q with events := E2 ++ (X1 ++ (ec1 :: F ++ [⟨.exit (.container c), spanEnd⟩])) } := by
    unfold QLvl at hq
    unfold outerCx at hnode
    cases hi : c.isItem with
    | true =>
      rw [hi] at hq hnode
      exact Or.inr ((LvlB.retight hq hc (hE1.trans hE2)).append hnode)
    | false =>
      rw [hi] at hq hnode
      exact Or.inl ((LvlA.retight hq hc (hE1.trans hE2)).append hnode)
  refine Sat.ok (hfin.congr ?_ ?_ rfl ?_ ?_)
  · rw [hp2.src_eq]
    rcases hq.lvl with h | h <;> exact h.src_eq.symm
  · rw [hp2.secs_eq]
    rcases hq.lvl with h | h <;> exact h.secs_eq.symm
  · exact hp2.lists_eq
  · simp

end

end Jotdown.Block
