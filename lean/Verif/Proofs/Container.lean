import Verif.Proofs.Term
/-! # Containers: begin and end -/
namespace Jotdown.Block
open Jotdown

section
variable {src : Bytes} {cx : Cx} {secs : List Nat} {E0 : List Event} {st : List Nat} {lists : List OpenList} {lo hi : Nat} {p : TP}

/-- The state inside a container, as seen from outside: `q` is the state before the container was
entered, `X` the events of an empty term, `ec` the event that enters the container. -/
structure Begun (src : Bytes) (cx : Cx) (s : Nat) (c : Container) (q : TP) (X : List Event) (ec : Event)
    (dt : Option (Nat × Nat × Nat)) : Prop where
  pre : ∃ m, Forest src (outerCx cx c) s X m ∧ Enters src m ec (.container c)
  term : (dt = none ∧ X = []) ∨ (c = .listItem .description ∧ dt = some (q.events.length, q.events.length + 2, q.open_.length) ∧
    ∃ d1 d2, X = [d1, d2] ∧ Enters src s d1 (.leaf .descriptionTerm) ∧ Exits src d2 (.leaf .descriptionTerm) ∧
      d1.span.stop ≤ ec.span.start)

/-- The outer level of a container: a list is open exactly if it is an item. -/
def QLvl (src : Bytes) (cx : Cx) (secs : List Nat) (E0 : List Event) (st : List Nat) (lists : List OpenList) (lo hi : Nat)
    (c : Container) (p : TP) : Prop :=
  if c.isItem then LvlB src cx secs E0 st lists lo hi p else LvlA src cx secs E0 st lists lo hi p

theorem QLvl.lvl {c : Container} (h : QLvl src cx secs E0 st lists lo hi c p) : Lvl src cx secs E0 st lists lo hi p := by
  unfold QLvl at h
  split at h
  · exact Or.inr h
  · exact Or.inl h

theorem enter_lvl (q : TP) (hq : q.src = src) (hsec : q.openSections = secs) (X : List Event) (c : Container) (sp : Span) (p' : TP)
    (h1 : p'.events = q.events ++ X) (h2 : p'.open_ = q.open_) (h3 : p'.openLists = q.openLists) (h4 : p'.src = q.src)
    (h5 : p'.openSections = q.openSections) :
    LvlA src .inner secs (q.events ++ X ++ [⟨.enter (.container c), sp⟩]) ((q.events ++ X).length :: q.open_) q.openLists sp.stop sp.stop
      (p'.enter (.container c) sp) := by
  refine ⟨by simp, h4.trans hq, h5.trans hsec, ?_, h3, _, [], .refl _ _, ?_, .nil (Nat.le_refl _)⟩
  · simp [TP.enter, h1, h2]
  · simp [TP.enter, h1]

theorem openList_other {k : Kind} (hk : k.isListItem = false) (p : TP) (n : Nat) : p.openList k n = .ok p := by
  unfold TP.openList
  cases k <;> first | rfl | simp [Kind.isListItem] at hk

/-- The container that a block kind stands for. -/
structure ContKind (src : Bytes) (b : Prepared) (c : Container) : Prop where
  cont : b.kind.isCont = true
  ok : ContOk c
  item : ∀ i ty lb, b.kind = .listItem i ty lb → (c = .listItem .description ↔ ty = .description)
  other : b.kind.isListItem = false → c ≠ .listItem .description
  isItem : c.isItem = b.kind.isListItem
  notList : childCx c = .inner
  node : NodeOk src b.spanStart (.container c)
  begins : KindAt src b.kind b.spanStart
  full : Fulls src b.ls

theorem kindAt_list {i : Nat} {ty : ListType} {lb : Bool} {sp : Span} (h : KindAt src (.listItem i ty lb) sp) (hty : TyOk ty) :
    NodeOk src ⟨sp.start, sp.start⟩ (.container (.list ty true)) := by
  rcases h with ⟨h, -⟩ | ⟨a, o, h1, h2, h3, h4⟩
  · simp at h
  · have := h4 (by simp)
    subst this
    cases h3 with
    | unordered => exact ⟨_, _, h2, .unordered (by rcases hty with rfl | rfl | rfl <;> decide)⟩
    | task => exact ⟨_, _, h2, .task (by rcases hty with rfl | rfl | rfl <;> decide)⟩
    | ordered => exact ⟨_, _, h2, .ordered⟩
    | description => exact ⟨_, h2⟩

theorem kindAt_term {i : Nat} {lb : Bool} {sp : Span} (h : KindAt src (.listItem i .description lb) sp) :
    NodeOk src sp (.leaf .descriptionTerm) := by
  rcases h with ⟨h, -⟩ | ⟨a, o, h1, h2, h3, h4⟩
  · simp at h
  · cases h3
    exact ⟨a, h1, h2⟩

theorem beginContainer_ok {b : Prepared} {c : Container} (h : Ready src cx secs E0 st lists lo b.spanStart.start b.kind p)
    (hs : Safe src) (hc : CtxOk E0 st lists) (hb : ContKind src b c) (hss : SpanOk src b.spanStart) (hk : KOk src b)
    {e : Nat} (hl : LinesOk src b.spanStart.stop b.ls e) (hd : st.length + 2 ≤ maxDepth src) :
    Sat (Allowed src) (p.beginContainer c b.kind b.spanStart b.outerLen b.ls) (fun r =>
      ∃ q X ec, QLvl src cx secs E0 st lists lo b.spanStart.start c q ∧
        LvlA src .inner secs (q.events ++ X ++ [ec]) ((q.events ++ X).length :: q.open_) q.openLists ec.span.stop ec.span.stop r.1 ∧
        Begun src cx b.spanStart.start c q X ec r.2.2 ∧
        LinesOk src ec.span.stop r.2.1 e ∧ weight r.2.1 ≤ weight b.ls ∧ Fulls src r.2.1) := by
  unfold TP.beginContainer
  have hsrc : p.src = src := by
    rcases h with h | h
    · exact h.src_eq
    · exact h.1.src_eq
  rw [hsrc]
  obtain ⟨ls, hlse, hls, hsub, hfirst⟩ := (contLines_ok (o := b.outerLen) hb.cont hl hs).exists_ok
  have hful := contLines_full (fun l hm => hl.mem hm) hb.full hlse
  rw [hlse]
  simp only [show ∀ {β : Type} (f : List Span → R β), (Except.ok ls >>= f) = f ls from fun _ => rfl]
  refine Sat.bind (P := fun q => QLvl src cx secs E0 st lists lo b.spanStart.start c q) ?_ ?_
  · cases hkk : b.kind.isListItem with
    | false =>
      rw [openList_other hkk]
      rcases h with h | h
      · exact Sat.ok (by unfold QLvl; rw [hb.isItem, hkk]; exact h)
      · rw [hkk] at h; simp at h
    | true =>
      cases hkind : b.kind <;> rw [hkind] at hkk <;> simp [Kind.isListItem] at hkk
      rename_i i ty lb
      have hk' := hk
      unfold KOk at hk'
      rw [hkind] at hk' h
      exact (openList_item h hc rfl hk'.1 (kindAt_list (hkind ▸ hb.begins) hk'.1) hss.at_start hd).mono (fun _ h => by unfold QLvl; rw [hb.isItem, hkind]; exact h.1)
  intro q hq
  have hqs : q.src = src ∧ q.openSections = secs := by
    rcases hq.lvl with h | h
    · exact ⟨h.src_eq, h.secs_eq⟩
    · exact ⟨h.src_eq, h.secs_eq⟩
  unfold TP.openTerm
  by_cases hd : c = .listItem .description
  · rw [if_pos hd]
    have hli : b.kind.isListItem = true := by
      cases hh : b.kind.isListItem with
      | true => rfl
      | false => exact absurd hd (hb.other hh)
    cases hkind : b.kind <;> rw [hkind] at hli <;> simp [Kind.isListItem] at hli
    rename_i i ty lb
    have hk' := hk
    unfold KOk at hk'
    rw [hkind] at hk'
    obtain ⟨hk1, hk2, hk3, hk4⟩ := hk'
    have hty := (hb.item i ty lb hkind).1 hd
    have htrim := hk4 hty
    have hterm : NodeOk src b.spanStart (.leaf .descriptionTerm) := kindAt_term (i := i) (lb := lb) (by rw [← hty, ← hkind]; exact hb.begins)
    have hte : (q.enter (.leaf .descriptionTerm) b.spanStart).trimEnd b.spanStart = .ok b.spanStart := by
      unfold TP.trimEnd
      have : (q.enter (.leaf .descriptionTerm) b.spanStart).src = src := hqs.1
      rw [this, hss.slice]
      simp only [Bind.bind, Except.bind, pure, Except.pure, htrim, sliceOf_length hss]
      have := hss.le
      rw [show b.spanStart.start + (b.spanStart.stop - b.spanStart.start) = b.spanStart.stop by omega]
    simp only []
    rw [hte]
    simp only [Bind.bind, Except.bind]
    have hex : (q.enter (.leaf .descriptionTerm) b.spanStart).exit ⟨b.spanStart.stop, b.spanStart.stop⟩ =
        .ok { q with events := q.events ++ [⟨.enter (.leaf .descriptionTerm), b.spanStart⟩, ⟨.exit (.leaf .descriptionTerm), ⟨b.spanStart.stop, b.spanStart.stop⟩⟩] } := by
      unfold TP.exit TP.enter TP.enterNode
      simp only [idx_append, Bind.bind, Except.bind, pure, Except.pure]
      simp
    rw [hex]
    simp only
    obtain ⟨l0, lr, hl0⟩ : ∃ l0 lr, b.ls = l0 :: lr := by
      cases hbl : b.ls with
      | nil => exact absurd hbl hk3
      | cons a l => exact ⟨a, l, rfl⟩
    obtain ⟨rest', hr⟩ := hfirst l0 lr hl0
    have hi0 : idx ls 0 = .ok l0 := by rw [hr]; rfl
    rw [hi0]
    simp only [pure, Except.pure]
    have hl0ok : SpanOk src l0 := hl.mem (by rw [hl0]; simp)
    have hge : b.spanStart.stop ≤ l0.start := by
      rw [hl0] at hl
      cases hl with
      | cons _ h _ _ => exact h
    refine Sat.ok ⟨q, [⟨.enter (.leaf .descriptionTerm), b.spanStart⟩, ⟨.exit (.leaf .descriptionTerm), ⟨b.spanStart.stop, b.spanStart.stop⟩⟩],
      ⟨.enter (.container c), ⟨l0.start, l0.start⟩⟩, hq, ?_, ⟨⟨b.spanStart.stop, ?_, rfl, by rw [hd]; trivial, hl0ok.at_start, hge⟩, ?_⟩, ?_, hsub.weight, hful⟩
    · exact enter_lvl q hqs.1 hqs.2 _ c _ _ rfl rfl rfl rfl rfl
    · exact .leaf (e := ⟨.enter (.leaf .descriptionTerm), b.spanStart⟩) (inl := []) ⟨rfl, hterm, hss, Nat.le_refl _⟩ (by rw [hd]; rfl)
        (.nil (Nat.le_refl _)) ⟨rfl, hss.at_stop⟩ (.nil (Nat.le_refl _))
    · right
      refine ⟨hd, ?_, _, _, rfl, ⟨rfl, hterm, hss, Nat.le_refl _⟩, ⟨rfl, hss.at_stop⟩, hge⟩
      simp
    · rw [hr] at hls ⊢
      cases hls with
      | cons h1 h2 nl h3 => exact .cons h1 (Nat.le_refl _) nl h3
  · rw [if_neg hd]
    simp only [Bind.bind, Except.bind, pure, Except.pure]
    refine Sat.ok ⟨q, [], ⟨.enter (.container c), b.spanStart⟩, hq, ?_, ⟨⟨b.spanStart.start, .nil (Nat.le_refl _), rfl, hb.node, hss, Nat.le_refl _⟩, Or.inl ⟨rfl, rfl⟩⟩,
      hls, hsub.weight, hful⟩
    exact enter_lvl q hqs.1 hqs.2 [] c _ _ (by simp) rfl rfl rfl rfl

/-- Blank lines at the start of a sequence of blocks. -/
theorem Forest.split_blank {lo hi : Nat} {G : List Event} (h : Forest src cx lo G hi) :
    ∃ B G2 m, G = B ++ G2 ∧ (∀ a ∈ B, a.kind = .atom .blankline) ∧ (∀ cx', Forest src cx' lo B m) ∧ Forest src cx m G2 hi ∧
      m = lastStop lo (B.map (·.span)) ∧ (∀ a ∈ B, SpanOk src a.span) ∧
      (∀ d rest, G2 = d :: rest → d.kind ≠ .atom .blankline) := by
  induction h with
  | nil h => exact ⟨[], [], _, rfl, by simp, fun _ => .nil (Nat.le_refl _), .nil h, rfl, by simp, by simp⟩
  | @atom cx lo hi e a F k s ha l h ih =>
    by_cases hb : e.kind = .atom .blankline
    · obtain ⟨B, G2, m, h1, h2, h3, h4, h5, h6, h7⟩ := ih
      refine ⟨e :: B, G2, m, by simp [h1], ?_, fun cx' => .atom hb s ⟨by rw [hb] at k; cases k; exact ha.1, fun _ => rfl⟩ l (h3 cx'), h4, ?_, ?_, h7⟩
      · intro a ha
        rcases List.mem_cons.1 ha with rfl | ha
        · exact hb
        · exact h2 a ha
      · rw [List.map_cons, lastStop_cons]; exact h5
      · intro a ha
        rcases List.mem_cons.1 ha with rfl | ha
        · exact s
        · exact h6 a ha
    · refine ⟨[], e :: F, lo, rfl, by simp, fun _ => .nil (Nat.le_refl _), .atom k s ha l h, rfl, by simp, ?_⟩
      intro d rest hd; simp at hd; rw [← hd.1]; exact hb
  | leaf a b c d h _ =>
    refine ⟨[], _, _, rfl, by simp, fun _ => .nil (Nat.le_refl _), .leaf a b c d h, rfl, by simp, ?_⟩
    intro x rest hd; simp at hd; rw [← hd.1, a.kind]; simp
  | term a b c d e f h _ =>
    refine ⟨[], _, _, rfl, by simp, fun _ => .nil (Nat.le_refl _), .term a b c d e f h, rfl, by simp, ?_⟩
    intro x rest hd; simp at hd; rw [← hd.1, a]; simp
  | table a b c d h _ =>
    refine ⟨[], _, _, rfl, by simp, fun _ => .nil (Nat.le_refl _), .table a b c d h, rfl, by simp, ?_⟩
    intro x rest hd; simp at hd; rw [← hd.1, a.kind]; simp
  | node a b c d h _ _ =>
    refine ⟨[], _, _, rfl, by simp, fun _ => .nil (Nat.le_refl _), .node a b c d h, rfl, by simp, ?_⟩
    intro x rest hd; simp at hd; rw [← hd.1, a.kind]; simp

/-- A sequence of blocks starts where its first event does. -/
theorem Forest.from_head {lo hi : Nat} {d : Event} {G : List Event} (h : Forest src cx lo (d :: G) hi) :
    lo ≤ d.span.start ∧ SpanOk src d.span ∧ Forest src cx d.span.start (d :: G) hi := by
  generalize hE : d :: G = E at h
  cases h with
  | nil => simp at hE
  | atom k s a l h =>
    simp at hE
    obtain ⟨rfl, rfl⟩ := hE
    exact ⟨l, s, .atom k s a (Nat.le_refl _) h⟩
  | leaf a b c e h =>
    simp at hE
    obtain ⟨rfl, rfl⟩ := hE
    exact ⟨a.lo, a.span, .leaf ⟨a.kind, a.node, a.span, Nat.le_refl _⟩ b c e h⟩
  | term a b c e f g h =>
    simp at hE
    obtain ⟨rfl, rfl⟩ := hE
    exact ⟨by rw [c]; exact e.lo, by rw [c]; exact e.span, .term a b c ⟨e.kind, e.node, e.span, by rw [c]; exact Nat.le_refl _⟩ f g h⟩
  | table a b c e h =>
    simp at hE
    obtain ⟨rfl, rfl⟩ := hE
    exact ⟨a.lo, a.span, .table ⟨a.kind, a.node, a.span, Nat.le_refl _⟩ b c e h⟩
  | node a b c e h =>
    simp at hE
    obtain ⟨rfl, rfl⟩ := hE
    exact ⟨a.lo, a.span, .node ⟨a.kind, a.node, a.span, Nat.le_refl _⟩ b c e h⟩

/-- Inversion: the first block is a paragraph. -/
theorem Forest.para {lo hi : Nat} {e : Event} {F : List Event} (h : Forest src cx lo (e :: F) hi)
    (he : e.kind = .enter (.leaf .paragraph)) :
    ∃ inl x G, F = inl ++ x :: G ∧ Enters src lo e (.leaf .paragraph) ∧ InlChain src true e.span.stop inl x.span.start ∧
      Exits src x (.leaf .paragraph) ∧ Forest src cx x.span.stop G hi := by
  generalize hE : e :: F = E at h
  cases h with
  | nil => simp at hE
  | atom k s a l h =>
    simp at hE
    obtain ⟨rfl, rfl⟩ := hE
    rw [he] at k; simp at k
  | @leaf cx lo hi e' l inl x G a b c d h =>
    simp at hE
    obtain ⟨rfl, rfl⟩ := hE
    have := a.kind
    rw [he] at this
    simp at this
    subst this
    exact ⟨inl, x, G, rfl, a, c, d, h⟩
  | term a b c d f g h =>
    simp at hE
    obtain ⟨rfl, rfl⟩ := hE
    rw [he] at a; simp at a
  | table a b c d h =>
    simp at hE
    obtain ⟨rfl, rfl⟩ := hE
    have := a.kind; rw [he] at this; simp at this
  | node a b c d h =>
    simp at hE
    obtain ⟨rfl, rfl⟩ := hE
    have := a.kind; rw [he] at this; simp at this

theorem InlChain.inline {fed : Bool} {lo hi : Nat} {es : List Event} (h : InlChain src fed lo es hi) : ∀ a ∈ es, a.kind = .inline := by
  induction h with
  | nil => simp
  | cons k _ _ _ _ ih =>
    intro a ha
    rcases List.mem_cons.1 ha with rfl | ha
    · exact k
    · exact ih a ha

end

end Jotdown.Block
