import Verif.Proofs.DocSections
/-! # How the inline elements of a document are written: the proof -/
namespace Jotdown
open Jotdown

variable {src : Bytes} {pre : PrePass}

theorem leafAfter_inline {e : Event} (h : InlineEv pre e) : leafAfter true e = true := by
  cases e with
  | start c a => simp only [leafAfter, h.1, if_true]
  | «end» c => simp only [leafAfter, h.1, if_true]
  | _ => rfl

theorem Spells.append {R : Resolver} {st st' st'' : List Opened} {a b : List (Event × Span)} (h : Spells src R true st a st') (hi : ∀ e ∈ a, InlineEv pre e.1)
    (h2 : Spells src R true st' b st'') : Spells src R true st (a ++ b) st'' := by
  induction a generalizing st with
  | nil => cases h; exact h2
  | cons e a ih =>
    cases h with
    | cons h1 h =>
      have hl := leafAfter_inline (hi e (by simp))
      rw [hl] at h
      refine .cons h1 ?_
      rw [hl]
      exact ih h (fun x hx => hi x (by simp [hx]))

/-- All lines so far were read. -/
def Waits (c : Inline.Cx) (p : Inline.IP) : Prop := Inline.Starved c p ∨ Inline.Pending c p ∨ Inline.Fin c p

theorem reads_spell {q q' : Parser} {es : List (Event × Span)} (hr : Reads q es q') : ∀ {c : Inline.Cx} (_ : c.Ok) (_ : c.src = src) (_ : q.src = src) {ist : List Inline.Open}
    (_ : Inline.Ready c ist q.inlineParser) (_ : DefsOk q.prePass.linkDefinitions),
    q'.src = src ∧ q'.prePass = q.prePass ∧ Spells src (resolve q.prePass) true (ist.map (pubO q.prePass q.inlineParser.storeCowstrs)) es [] ∧
      ∃ c' : Inline.Cx, c'.Ok ∧ c'.src = c.src ∧ c'.H = c.H ∧ c'.cpl = c.cpl ∧ c'.more = c.more ∧ Waits c' q'.inlineParser := by
  induction hr with
  | @none p p' h =>
    intro c hc hsrc hq ist hrd hd
    obtain ⟨ip, h1, h2, h3⟩ := (inline_sat hc hsrc hq hrd hd).of_ok h
    simp only at h1
    subst h1 h2
    exact ⟨hq, rfl, .nil, c, hc, rfl, rfl, rfl, rfl, h3⟩
  | @some p p' p'' e es h _ ih =>
    intro c hc hsrc hq ist hrd hd
    obtain ⟨ip, h1, h2⟩ := (inline_sat hc hsrc hq hrd hd).of_ok h
    simp only at h1 h2
    obtain ⟨c', ist', k1, k2, k3, k4, k5, k6, k7, k8, -⟩ := h2.ex
    subst h1
    have hc' : c'.Ok := ⟨by rw [k1]; exact hc.safe, by rw [k1]; exact hc.bd, by rw [k1, k2]; exact hc.le⟩
    obtain ⟨g1, g2, g3, d, gd, d1, d2, d3, d4, d5⟩ := ih (c := c') hc' (by rw [k1, hsrc]) hq (.emit k7) hd
    refine ⟨g1, g2, ?_, d, gd, by rw [d1, k1], by rw [d2, k2], by rw [d3, k3], by rw [d4, k4], d5⟩
    have hinl := (inline_ok h).2.2 e rfl
    refine .cons k8 ?_
    rw [leafAfter_inline hinl]
    exact g3

theorem lines_spell_wait {lo hi : Nat} {inl : List Block.Event} (hch : Block.InlChain src true lo inl hi) : ∀ {c : Inline.Cx} (_ : c.Ok) (_ : c.src = src) (_ : c.H = lo)
    (_ : c.cpl = inl.isEmpty) (_ : c.more = !inl.isEmpty) {q : Parser} (_ : q.src = src) (_ : Waits c q.inlineParser) (_ : DefsOk q.prePass.linkDefinitions) {es : List (Event × Span)}
    (_ : ReadsLines q (inl.map (·.span)) es), Spells src (resolve q.prePass) true [] es [] := by
  induction hch with
  | nil h =>
    intro c _ _ _ _ _ q _ _ _ es hr
    cases hr
    exact .nil
  | @cons lo hi e inl hk hsp hlo hnl hch ih =>
    intro c hc hsrc hH hcpl hmore q hq hw hd es hr
    subst hsrc
    have hwait : Inline.Starved c q.inlineParser ∨ Inline.Pending c q.inlineParser := by
      rcases hw with hw | hw | hw
      · exact .inl hw
      · exact .inr hw
      · have := Fin.cpl hw; rw [hcpl] at this; cases this
    rw [List.map_cons] at hr
    cases hr with
    | @cons _ ip p' _ _ es1 es2 hf hr1 hr2 =>
      have hm : (!inl.isEmpty) = true → c.more = true ∧ Block.NlStop c.src e.span.stop := by
        intro hmo
        refine ⟨by rw [hmore]; rfl, ?_⟩
        rcases hnl rfl with h | h
        · subst h; simp at hmo
        · exact h
      have hne : c.H < e.span.stop → c.more = true := fun _ => by rw [hmore]; rfl
      have hH' : c.H ≤ e.span.start := by omega
      have hrd0 := wait_feed hc hwait hsp hH' (last := (inl.map (·.span)).isEmpty) (more := !inl.isEmpty) hne hm
      have hrd := Sat.of_ok hrd0 hf
      clear hrd0
      have hok := line_ok hc hsp (inl.map (·.span)).isEmpty (!inl.isEmpty)
      generalize hC : c.line e.span (inl.map (·.span)).isEmpty (!inl.isEmpty) = C at hrd hok
      have hCs : C.src = c.src := by rw [← hC]; rfl
      have hCh : C.H = e.span.stop := by rw [← hC]; rfl
      have hCc : C.cpl = inl.isEmpty := by rw [← hC]; simp [Inline.Cx.line]
      have hCm : C.more = !inl.isEmpty := by rw [← hC]; rfl
      obtain ⟨g1, g2, g3, d, gd, d1, d2, d3, d4, d5⟩ := reads_spell (src := c.src) (q := { q with inlineParser := ip }) hr1 (c := C) hok hCs hq (ist := []) hrd hd
      have hi := (reads_inline hr1).2
      refine Spells.append g3 hi ?_
      have hd' : DefsOk p'.prePass.linkDefinitions := by rw [g2]; exact hd
      have := ih (c := d) gd (d1.trans hCs) (d2.trans hCh) (d3.trans hCc) (d4.trans hCm) (q := p') g1 d5 hd' hr2
      rw [g2] at this
      exact this

theorem lines_spell {lo hi : Nat} {inl : List Block.Event} (hch : Block.InlChain src true lo inl hi) (hs : Safe src) (hb : Bd src) {q : Parser} (hq : q.src = src)
    (hi : Inline.Idle src q.inlineParser) (hd : DefsOk q.prePass.linkDefinitions) {es : List (Event × Span)}
    (hr : ReadsLines q (inl.map (·.span)) es) : Spells src (resolve q.prePass) true [] es [] := by
  cases hch with
  | nil h => cases hr; exact .nil
  | @cons _ _ e inl hk hsp hlo hnl hch =>
    rw [List.map_cons] at hr
    cases hr with
    | @cons _ ip p' _ _ es1 es2 hf hr1 hr2 =>
      have hc : Inline.Cx.Ok ⟨src, e.span.stop, lo, 3 * src.length, (inl.map (·.span)).isEmpty, !inl.isEmpty, 0, 0⟩ := ⟨hs, hb, hsp.len⟩
      have hm : (!inl.isEmpty) = true → Block.NlStop src e.span.stop := by
        intro hmo
        rcases hnl rfl with h | h
        · subst h; simp at hmo
        · exact h
      have hrd0 := hi.feed (c := ⟨src, e.span.stop, lo, 3 * src.length, (inl.map (·.span)).isEmpty, !inl.isEmpty, 0, 0⟩) hs hsp rfl hlo hm (Nat.le_refl _)
      have hrd := Sat.of_ok hrd0 hf
      clear hrd0
      generalize hC : (⟨src, e.span.stop, lo, 3 * src.length, (inl.map (·.span)).isEmpty, !inl.isEmpty, 0, 0⟩ : Inline.Cx) = C at hrd hc
      have hCs : C.src = src := by rw [← hC]
      have hCh : C.H = e.span.stop := by rw [← hC]
      have hCc : C.cpl = inl.isEmpty := by rw [← hC]; simp
      have hCm : C.more = !inl.isEmpty := by rw [← hC]
      obtain ⟨g1, g2, g3, d, gd, d1, d2, d3, d4, d5⟩ := reads_spell (src := src) (q := { q with inlineParser := ip }) hr1 (c := C) hc hCs hq (ist := []) (.live hrd) hd
      have hi := (reads_inline hr1).2
      refine Spells.append g3 hi ?_
      have hd' : DefsOk p'.prePass.linkDefinitions := by rw [g2]; exact hd
      have := lines_spell_wait hch (c := d) gd (d1.trans hCs) (d2.trans hCh) (d3.trans hCc) (d4.trans hCm) (q := p') g1 d5 hd' hr2
      rw [g2] at this
      exact this

theorem raw_spell {R : Resolver} (ls : List Span) : Spells src R true [] (rawLines src ls) [] := by
  unfold rawLines
  induction ls.filter (fun l => l.start != l.stop) with
  | nil => exact .nil
  | cons l ls ih => exact .cons (e := (.str (textAt src l), l)) ⟨rfl, rfl⟩ ih

theorem content_spell {l : Block.Leaf} {lo hi : Nat} {inl : List Block.Event} (hch : Block.InlChain src l.isFed lo inl hi) (hs : Safe src) (hb : Bd src)
    (hd : DefsOk pre.linkDefinitions) {cs : List (Event × Span)} (h : Content src pre l (inl.map (·.span)) cs) : Spells src (resolve pre) true [] cs [] := by
  cases h with
  | raw => exact raw_spell _
  | parsed hf hr =>
    have : l.isFed = true := by rw [isRaw_fed] at hf; simpa using hf
    rw [this] at hch
    exact lines_spell hch hs hb (q := freshParser src pre) rfl (Inline.Idle.new src) hd hr

theorem split_unique {A B C D : List Block.Event} {x y : Block.Event} (h : A ++ x :: B = C ++ y :: D) (hA : ∀ i ∈ A, i.kind = .inline) (hC : ∀ i ∈ C, i.kind = .inline)
    (hx : x.kind ≠ .inline) (hy : y.kind ≠ .inline) : A = C ∧ x = y ∧ B = D := by
  induction A generalizing C with
  | nil =>
    cases C with
    | nil => simp at h; exact ⟨rfl, h.1, h.2⟩
    | cons c C => simp at h; exact absurd (h.1 ▸ hC c (by simp)) hx
  | cons a A ih =>
    cases C with
    | nil => simp at h; exact absurd (h.1 ▸ hA a (by simp)) hy
    | cons c C =>
      simp at h
      obtain ⟨h1, h2, h3⟩ := ih h.2 (fun i hi => hA i (by simp [hi])) (fun i hi => hC i (by simp [hi]))
      exact ⟨by rw [h.1, h1], h2, h3⟩

theorem chain_inline {fed : Bool} {lo hi : Nat} {inl : List Block.Event} (h : Block.InlChain src fed lo inl hi) : ∀ i ∈ inl, i.kind = .inline := by
  induction h with
  | nil => simp
  | cons hk _ _ _ _ ih =>
    intro i hi
    rcases List.mem_cons.1 hi with rfl | hi
    · exact hk
    · exact ih i hi

theorem nodeName_cont (ids : Nat → Bytes) (h : Bool) (c : Block.Container) : isInline (nodeName ids h (.container c)) = false ∧ isLeafBlock (nodeName ids h (.container c)) = false := by
  cases c with
  | list ty tight => cases ty <;> exact ⟨rfl, rfl⟩
  | listItem k => cases k <;> exact ⟨rfl, rfl⟩
  | _ => exact ⟨rfl, rfl⟩

theorem nodeName_leaf (ids : Nat → Bytes) (h : Bool) (l : Block.Leaf) : isInline (nodeName ids h (.leaf l)) = false ∧ isLeafBlock (nodeName ids h (.leaf l)) = true := by
  cases l with
  | codeBlock lang => simp only [nodeName]; split <;> exact ⟨rfl, rfl⟩
  | _ => exact ⟨rfl, rfl⟩

theorem spell_start {R : Resolver} {l : Bool} {c : Container} (hc : isInline c = false) (a : Attr.Attributes) (sp : Span) : SpellStep src R l [] (.start c a, sp) [] := by
  simp [SpellStep, hc]

theorem spell_end {R : Resolver} {l : Bool} {c : Container} (hc : isInline c = false) (sp : Span) : SpellStep src R l [] (.end c, sp) [] := by
  simp [SpellStep, hc]

theorem flush_spell {R : Resolver} {pend : List Span} {K : List (Event × Span)} (h : Spells src R false [] K []) : Spells src R false [] (flush src pend ++ K) [] := by
  cases pend with
  | nil => exact h
  | cons sp sps => exact .cons ⟨rfl, fun h => by cases h⟩ h

theorem doc_spell (hs : Safe src) (hb : Bd src) (hd : DefsOk pre.linkDefinitions) {h : Bool} {pend : List Span} {es : List Block.Event} {evs : List (Event × Span)}
    (hdoc : DocEvents src pre h pend es evs) : ∀ {st : List Block.Container} {n : Nat}, Block.BT src st n es → Spells src (resolve pre) false [] evs [] := by
  induction hdoc with
  | nil => intro st n _; exact .nil
  | stale hk _ ih =>
    intro st n hbt
    cases hbt with
    | atom hk' => rw [hk] at hk'; cases hk'
    | stale _ _ hbt => exact ih hbt
    | enter he => have := he.kind; rw [hk] at this; cases this
    | exit he => have := he.kind; rw [hk] at this; cases this
    | leaf he => have := he.kind; rw [hk] at this; cases this
  | attributes hk _ ih =>
    intro st n hbt
    cases hbt with
    | atom _ _ _ _ _ hbt => exact ih hbt
    | stale hk' => rw [hk] at hk'; cases hk'
    | enter he => have := he.kind; rw [hk] at this; cases this
    | exit he => have := he.kind; rw [hk] at this; cases this
    | leaf he => have := he.kind; rw [hk] at this; cases this
  | blankline hk _ ih =>
    intro st n hbt
    refine flush_spell (.cons (e := (.blankline, _)) ⟨rfl, trivial⟩ ?_)
    cases hbt with
    | atom _ _ _ _ _ hbt => exact ih hbt
    | stale hk' => rw [hk] at hk'; cases hk'
    | enter he => have := he.kind; rw [hk] at this; cases this
    | exit he => have := he.kind; rw [hk] at this; cases this
    | leaf he => have := he.kind; rw [hk] at this; cases this
  | thematicBreak hk _ ih =>
    intro st n hbt
    refine .cons (e := (.thematicBreak _, _)) ⟨rfl, trivial⟩ ?_
    cases hbt with
    | atom _ _ _ _ _ hbt => exact ih hbt
    | stale hk' => rw [hk] at hk'; cases hk'
    | enter he => have := he.kind; rw [hk] at this; cases this
    | exit he => have := he.kind; rw [hk] at this; cases this
    | leaf he => have := he.kind; rw [hk] at this; cases this
  | @enter h pend e c es evs hk _ ih =>
    intro st n hbt
    obtain ⟨h1, h2⟩ := nodeName_cont (idAt pre) h c
    refine .cons (spell_start h1 _ _) ?_
    simp only [leafAfter, h1, h2, Bool.false_eq_true, if_false]
    cases hbt with
    | atom hk' => rw [hk] at hk'; cases hk'
    | stale hk' => rw [hk] at hk'; cases hk'
    | enter _ _ _ hbt => exact ih hbt
    | exit he => have := he.kind; rw [hk] at this; cases this
    | leaf he => have := he.kind; rw [hk] at this; cases this
  | @exit h pend e c es evs hk _ ih =>
    intro st n hbt
    obtain ⟨h1, h2⟩ := nodeName_cont (idAt pre) h c
    refine flush_spell (.cons (spell_end h1 _) ?_)
    simp only [leafAfter, h1, Bool.false_eq_true, if_false]
    cases hbt with
    | atom hk' => rw [hk] at hk'; cases hk'
    | stale hk' => rw [hk] at hk'; cases hk'
    | enter he => have := he.kind; rw [hk] at this; cases this
    | exit _ _ hbt => exact ih hbt
    | leaf he => have := he.kind; rw [hk] at this; cases this
  | @leaf h pend e l inl x es cs evs hk hinl hx hcs _ ih =>
    intro st n hbt
    obtain ⟨h1, h2⟩ := nodeName_leaf (idAt pre) h l
    refine .cons (spell_start h1 _ _) ?_
    simp only [leafAfter, h1, h2, Bool.false_eq_true, if_false]
    generalize hL : e :: inl ++ x :: es = L at hbt
    cases hbt with
    | done => cases hL
    | atom hk' => injection hL with hL _; subst hL; rw [hk] at hk'; cases hk'
    | stale hk' => injection hL with hL _; subst hL; rw [hk] at hk'; cases hk'
    | enter he => injection hL with hL _; subst hL; have := he.kind; rw [hk] at this; cases this
    | exit he => injection hL with hL _; subst hL; have := he.kind; rw [hk] at this; cases this
    | @leaf c' st' n' l' e' inl' x' es' he hc hch hxx hbt =>
      injection hL with hL hL2
      subst hL
      have := he.kind
      rw [hk] at this
      injection this with this
      injection this with this
      subst this
      obtain ⟨rfl, rfl, rfl⟩ := split_unique hL2 hinl (chain_inline hch) (by rw [hx]; simp) (by rw [hxx.kind]; simp)
      refine (content_spell hch hs hb hd hcs).append (content_inline hcs) (.cons (spell_end h1 _) ?_)
      simp only [leafAfter, h1, Bool.false_eq_true, if_false]
      exact ih hbt

end Jotdown
