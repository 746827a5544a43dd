import Verif.Proofs.RoundMark
/-! # Round trip: preparing and emitting blocks -/
namespace Jotdown.Round
open Jotdown Jotdown.Notation

/-! ## Preparing -/

theorem prepare_parts {src : Bytes} (hs : Safe src) {first : Span} {rest : List Span} (hok : ∀ l ∈ first :: rest, Block.SpanOk src l)
    {l : Bytes} {A R : List Bytes} (hl : (first :: rest).map (textAt src) = l :: (A ++ R)) {k k' k3 : Block.Kind} {a m : Nat}
    (hid : ∀ r, Bd l → Safe l → Block.identify l = .ok r → r = (k, ⟨a, m⟩)) (hrun : Runs k A k') (hst : StopsAs k' R k3)
    (ht : k3 ≠ .table false true) {b : Block.Prepared} (h : Block.prepare src first rest = .ok b) :
    b.kind = k3 ∧ b.spanStart = ⟨first.start + a, first.start + m⟩ ∧ b.outerLen = m ∧ b.lineCount = A.length + 1 ∧
    ∃ ls', Block.skipOuter src k3 m first (rest.take A.length) = .ok ls' ∧ Block.skipFence k3 ls' = .ok b.ls := by
  simp only [List.map_cons, List.cons.injEq] at hl
  obtain ⟨hl1, hl2⟩ := hl
  have hf := hok first (by simp)
  have htx : textAt src first = Block.sliceOf src first := rfl
  have hbs := Block.sliceOf_bd_safe hf hs
  rw [← htx, hl1] at hbs
  unfold Block.prepare Block.meteredBlock at h
  rw [hf.slice, ← htx, hl1] at h
  simp only [Bind.bind, Except.bind] at h
  cases hi : Block.identify l with
  | error e => rw [hi] at h; cases h
  | ok r =>
    have := hid r hbs.1 hbs.2 hi
    subst this
    rw [hi] at h
    simp only at h
    cases hm : Block.measure src k rest with
    | error e => rw [hm] at h; cases h
    | ok q =>
      obtain ⟨k2, n⟩ := q
      obtain ⟨rfl, rfl⟩ := measure_runs hs (fun l hl => hok l (List.mem_cons_of_mem _ hl)) hl2 hrun hst hm
      rw [hm] at h
      simp only [pure, Except.pure, List.take_succ_cons] at h
      have htt : ∀ x, Block.trimTable src k2 x = .ok x := by
        intro x
        cases k2 with
        | table a b =>
          cases a <;> cases b <;> first | rfl | exact absurd rfl ht
        | _ => rfl
      rw [htt] at h
      simp only at h
      have hcs : Block.skipOuter src k2 m first (rest.take A.length) = Block.skipOuter src k2 m first (rest.take A.length) := rfl
      have hcsub : csub (m + first.start) first.start = .ok m := by simp [csub]
      rw [hcsub] at h
      simp only at h
      cases hso : Block.skipOuter src k2 m first (rest.take A.length) with
      | error e => rw [hso] at h; cases h
      | ok ls' =>
        rw [hso] at h
        simp only at h
        cases hsf : Block.skipFence k2 ls' with
        | error e => rw [hsf] at h; cases h
        | ok ls2 =>
          rw [hsf] at h
          simp only [Except.ok.injEq] at h
          subst h
          have hlen : A.length ≤ rest.length := by
            have := congrArg List.length hl2
            simp at this; omega
          refine ⟨rfl, by simp [Nat.add_comm], rfl, ?_, ls', rfl, hsf⟩
          simp [Nat.min_eq_left hlen]

/-! ## Emitting -/

theorem exit_eq {q q' : Block.TP} {sp s : Span} {n : Block.Node} {i : Nat} {rest : List Nat} (ho : q.open_ = i :: rest) (he : q.events[i]? = some ⟨.enter n, s⟩)
    (h : q.exit sp = .ok q') : q' = { q with open_ := rest, events := q.events ++ [⟨.exit n, sp⟩] } := by
  unfold Block.TP.exit at h
  rw [ho] at h
  simp only at h
  obtain ⟨n', hn', h2⟩ := bind_ok h
  clear h
  simp [Block.TP.enterNode, idx, he, Bind.bind, Except.bind, pure, Except.pure] at hn'
  subst hn'
  cases h2
  rfl

/-- A leaf with the given lines. -/
def leafEvents (leaf : Block.Leaf) (s e : Span) (sps : List Span) : List Block.Event :=
  ⟨.enter (.leaf leaf), s⟩ :: (sps.map (fun l => (⟨.inline, l⟩ : Block.Event)) ++ [⟨.exit (.leaf leaf), e⟩])

theorem parseLeaf_app {p p' : Block.TP} {leaf : Block.Leaf} {k : Block.Kind} {s e : Span} {ls : List Span} (hsec : p.leafSections leaf k s.start = .ok p)
    (h : p.parseLeaf leaf k s e ls = .ok p') :
    ∃ ls', p.leafLines leaf k ls = .ok ls' ∧ p' = app p (leafEvents leaf s e (ls'.filter (fun l => !l.isEmpty))) := by
  unfold Block.TP.parseLeaf at h
  obtain ⟨ls', h1, h2⟩ := bind_ok h
  rw [hsec] at h2
  refine ⟨ls', h1, ?_⟩
  simp only [Bind.bind, Except.bind, Block.TP.inlines, Block.foldl_inline] at h2
  have := exit_eq (n := .leaf leaf) (s := s) (i := p.events.length) (rest := p.open_) rfl ?_ h2
  · rw [this]
    simp [app, leafEvents, Block.TP.enter]
  · simp [Block.TP.enter]

/-! ## Children -/

/-- Entering a container. -/
theorem Near.enter {p : Block.TP} (h : Near p) (n : Block.Node) (s : Span) : Calm (p.enter n s) := by
  refine ⟨?_, ?_⟩
  · intro l ls hl
    have := h.lists l ls hl
    have h2 := this.1
    have h3 := this.2
    simp [Block.TP.enter]
    omega
  · intro i hi
    simp only [Block.TP.enter, List.mem_cons] at hi
    simp only [Block.TP.enter, List.length_append, List.length_cons, List.length_nil]
    rcases hi with rfl | hi
    · omega
    · have := h.opn i hi
      omega

theorem enter_eq (p : Block.TP) (n : Block.Node) (s : Span) : p.enter n s = { app p [⟨.enter n, s⟩] with open_ := p.events.length :: p.open_ } := rfl

/-- A list that is open at the end of a container. -/
theorem closeInner_calm {p p' : Block.TP} {pos : Nat} (hc : Calm p) (h : p.closeInnerList pos = .ok p') : p' = p := by
  unfold Block.TP.closeInnerList at h
  split at h
  · cases h; rfl
  · rename_i l ls hl
    obtain ⟨_, -, h2⟩ := bind_ok h
    have := (hc.lists l ls hl).1
    rw [if_neg (by omega)] at h2
    cases h2; rfl

theorem closeInner_pend {p p' : Block.TP} {pos : Nat} (hc : Pending p) (h : p.closeInnerList pos = .ok p') : p' = mark (settle p pos) (.set false) := by
  obtain ⟨q, ty0, tyk, s, t, pb, E, hq, rfl⟩ := hc
  rw [pend_close]
  simp only [Block.TP.closeInnerList, pend, dassert] at h
  simp [Bind.bind, Except.bind, pure, Except.pure, Block.TP.closeList, Block.TP.exit, Block.TP.enterNode, idx] at h
  rw [← h]
  simp [app, mark]

/-- A container around its children. -/
theorem container_app {p p' : Block.TP} {n : Block.Node} {s e : Span} {ms : List Mk} {E : List Block.Event} (hc : Near p)
    (h : (app (marks (p.enter n s) ms) E).exit e = .ok p') :
    p' = app (marks p ms) (⟨.enter n, s⟩ :: (E ++ [⟨.exit n, e⟩])) := by
  have hf := marks_facts (p.enter n s) ms
  have hopen : (app (marks (p.enter n s) ms) E).open_ = p.events.length :: p.open_ := by rw [app_open, hf.2.2.1]; rfl
  have hev : (app (marks (p.enter n s) ms) E).events[p.events.length]? = some ⟨.enter n, s⟩ := by
    have hlen : (p.enter n s).events.length = p.events.length + 1 := by simp [Block.TP.enter]
    rw [app_events, List.getElem?_append_left (by rw [hf.2.2.2.2.1, hlen]; omega)]
    rw [marks_other]
    · simp [Block.TP.enter]
    · intro l ls hl
      have := (hc.lists l ls hl).2
      omega
  rw [exit_eq hopen hev h, enter_eq, marks_open, marks_app hc]
  have := (marks_facts p ms).2.2.1
  generalize marks p ms = q at *
  cases q
  simp only at this
  simp [app, this]

theorem setAttrStart_bare {p p' : Block.TP} {k : Block.Kind} (hk : k ≠ .atom .attributes) (h : p.setAttrStart k = .ok p') : p' = bare p := by
  unfold Block.TP.setAttrStart at h
  rw [if_neg hk] at h
  cases h
  rfl

end Jotdown.Round
