import Verif.Proofs.InlParse
/-! # One token -/
namespace Jotdown.Inline
open Jotdown
open Jotdown.Block
open Jotdown.Notation

variable {c : Cx}

/-! ## Opening a container -/

theorem fromToken_ne {k : Lex.Kind} {o : Opener} (h : Opener.fromToken k = some o) : ∀ a b d, o ≠ .link a b d := by
  intro a b d ho
  subst ho
  unfold Opener.fromToken at h
  split at h <;> simp at h

/-- The text of the token of an opener. -/
theorem fromToken_text {k : Lex.Kind} {o : Opener} (h : Opener.fromToken k = some o) {t : Bytes} (h1 : k ≠ .opn .bracket → Lex.TextOf t k)
    (h2 : k = .opn .bracket → Bracket t) : OpenText o t := by
  unfold Opener.fromToken at h
  split at h <;> simp at h <;> subst h <;> first
    | exact h2 rfl
    | exact h1 (by simp)
    | exact .inl (h1 (by simp))
    | exact .inr (h1 (by simp))

theorem tryOpen_ok (hc : c.Ok) {p : IP} {t : Lex.Token} (h : Mid c p t) (hv : p.verbatim = none) :
    Sat Never (p.tryOpen t) (Res c (fun p' => p' = p)) := by
  have hlay : Lay (nts c p) p.openers c.lo p.events p.input.span.start := by have := h.queue; rw [hv] at this; exact this
  have hsp := h.inp.spanOk hc
  have hne := h.ne
  have hlen := hsp.len
  have hpot := h.pot
  rw [pot_none hv] at hpot
  unfold IP.tryOpen
  cases hf : Opener.fromToken t.kind with
  | none => exact rfl
  | some o =>
    simp only
    rw [h.inp.rem.ahead]
    simp only [Bind.bind, Except.bind]
    have hws : ∃ b, p.input.wsBefore' = .ok b := by
      unfold Input.wsBefore'
      split
      · have : p.input.span.start - 1 < p.input.src.length := by rw [h.inp.src]; omega
        simp [idx, List.getElem?_eq_getElem this, Bind.bind, Except.bind, Pure.pure, Except.pure]
      · exact ⟨_, rfl⟩
    obtain ⟨b, hb⟩ := hws
    have hot : OpenText o (sliceOf c.src p.input.span) := fromToken_text hf (fun hk => (h.text hk).1) h.bracket
    have hopen : Res c (fun p' => p' = p) ({ p with
          openers := (o, p.events.length) :: p.openers
          events := p.events ++ [⟨.placeholder, ⟨p.input.span.start, p.input.span.start⟩⟩,
            ⟨openerKind o, p.input.span⟩] }, some .cont) := by
      refine ⟨⟨h.inp, h.attr, ?_, ?_, h.store, ?_, ?_, .none hv⟩, h.q, h.al⟩
      · rw [hv]
        exact Lay.norm (fromToken_ne hf) rfl hlay ⟨rfl, rfl⟩ ⟨Nat.le_refl _, Nat.le_refl _⟩ rfl ⟨Nat.le_refl _, hsp.le⟩ hot (.nil (Nat.le_refl _))
      · intro z hz
        simp only at hz ⊢
        simp at hz
        rcases hz with hz | rfl | rfl
        · exact h.evs z hz
        · exact ⟨hsp.at_start, trivial, trivial⟩
        · refine ⟨hsp, ?_, ?_⟩
          · cases o <;> trivial
          · cases o with
            | singleQuoted => exact hot.imp_right .inr
            | doubleQuoted => exact hot
            | _ => trivial
      · intro z hz
        simp at hz
        subst hz
        exact ⟨by cases o <;> simp [openerKind], fun _ => .inl hne⟩
      · rw [pot_none (by exact hv)]
        have hw : wt ⟨openerKind o, p.input.span⟩ ≤ 1 + (p.input.span.stop - p.input.span.start) := by
          cases o <;> simp [wt, openerKind, Span.len]
        simp only [weight_append, weight_cons, weight_nil]
        have hph : wt ⟨.placeholder, ⟨p.input.span.start, p.input.span.start⟩⟩ = 1 := by simp [wt, Span.len]
        rw [hph]
        omega
    rw [hb]
    simp only
    split
    all_goals
      split
      · exact rfl
      · split
        · exact rfl
        · exact Sat.pure hopen

theorem orElse_ok {x : R (IP × Option Flow)} {f : IP → R (IP × Option Flow)} {N N' : IP → Prop} (h : Sat Never x (Res c N))
    (hf : ∀ p, N p → Sat Never (f p) (Res c N')) : Sat Never (orElse x f) (Res c N') := by
  unfold orElse
  refine h.bind ?_
  intro r hr
  unfold Res at hr
  cases h1 : r.2 with
  | none => rw [h1] at hr; exact hf _ hr
  | some fl =>
    rw [h1] at hr
    refine Sat.pure ?_
    unfold Res
    simp only
    cases fl <;> exact hr

theorem parseContainer_ok (hc : c.Ok) {p : IP} {t : Lex.Token} (h : Mid c p t) (hv : p.verbatim = none) :
    Sat Never (p.parseContainer t) (Res c (fun p' => p' = p)) := by
  unfold IP.parseContainer
  refine orElse_ok (tryClose_ok hc h hv) ?_
  intro p' hp'
  subst hp'
  exact tryOpen_ok hc h hv

/-! ## Atoms -/

/-- Part of a token was turned into atoms. -/
structure Atoms (c : Cx) (p : IP) (k : Nat) : Prop where
  inp : InpOk c p.input
  attr : p.attributes = none
  verb : p.verbatim = none
  lay : Lay (nts c p) p.openers c.lo p.events p.input.span.start
  evs : EvsOk c.src p
  store : ∀ a ∈ p.storeAttributes, GoodAttrs a
  pot : weight p.events + 3 * (c.src.length - p.input.span.start) + k ≤ c.K
  q : c.q < p.input.span.stop
  al : p.input.ahead.length ≤ c.al

theorem ellipses_run (p : IP) (n : Nat) : p.ellipses n = p.repeatAtom .ellipsis 3 n := by
  induction n generalizing p with
  | zero => rfl
  | succ n ih => unfold IP.ellipses IP.repeatAtom; exact ih _

theorem repeatAtom_ok (hc : c.Ok) {x : UInt8} (hx : x < 128) {a : Atom} (ha : ∀ ns na, KindOk ns na (.atom a)) {w : Nat} (hw : 2 ≤ w) (hat : AtomText a (List.replicate w x)) :
    ∀ {n k : Nat} {p : IP}, Atoms c p k → p.input.span.start + w * n ≤ p.input.span.stop →
    (∀ j, p.input.span.start ≤ j → j < p.input.span.stop → c.src[j]? = some x) →
    Atoms c (p.repeatAtom a w n) (k + 2 * n) ∧ (p.repeatAtom a w n).input.span = ⟨p.input.span.start + w * n, p.input.span.stop⟩ ∧
      (n ≠ 0 → ∃ e, (p.repeatAtom a w n).events.getLast? = some e ∧ (e.kind ≠ .str ∧ e.kind ≠ .placeholder)) ∧ (n = 0 → (p.repeatAtom a w n).events = p.events) := by
  intro n
  induction n with
  | zero => intro k p h _ _; exact ⟨h, by simp [IP.repeatAtom], fun h => absurd rfl h, fun _ => rfl⟩
  | succ n ih =>
    intro k p h h1 h2
    have hmul : w * (n + 1) = w * n + w := by rw [Nat.mul_succ]
    have hsp := h.inp.spanOk hc
    have hlen := hsp.len
    have hbd : Bd (c.src.drop (p.input.span.start + w)) := by
      have := h2 (p.input.span.start + w - 1) (by omega) (by omega)
      have := bd_after hc.safe this hx
      have h3 : p.input.span.start + w - 1 + 1 = p.input.span.start + w := by omega
      rwa [h3] at this
    have hpot := h.pot
    have htx : sliceOf c.src ⟨p.input.span.start, p.input.span.start + w⟩ = List.replicate w x := by
      apply List.ext_getElem?
      intro j
      rw [List.getElem?_replicate]
      unfold sliceOf
      simp only
      rw [List.getElem?_take, List.getElem?_drop]
      by_cases hj : j < w
      · rw [if_pos hj, if_pos (by omega)]
        exact h2 _ (by omega) (by omega)
      · rw [if_neg hj, if_neg (by omega)]
    unfold IP.repeatAtom
    simp only
    have hA : Atoms c ({ p.pushSp (.atom a) ⟨p.input.span.start, p.input.span.start + w⟩ with
        input := { p.input with span := ⟨p.input.span.start + w, p.input.span.stop⟩ } }) (k + 2) := by
      refine ⟨?_, h.attr, h.verb, ?_, EvsOk.push h.evs ⟨⟨by simp, by simp only; omega, h.inp.bs, hbd⟩, ha _ _, by rw [← htx] at hat; exact hat⟩, h.store, ?_, h.q, h.al⟩
      · exact ⟨h.inp.src, h.inp.cpl, by simp only; omega, h.inp.stop, hbd, h.inp.be, h.inp.bl, h.inp.rem, h.inp.chain, h.inp.nl, h.inp.ls⟩
      · exact (h.lay.move rfl rfl (mem_lines rfl rfl)).one (.inr (.inr ⟨_, rfl⟩)) ⟨Nat.le_refl _, by simp⟩ (Nat.le_refl _)
      · simp [IP.pushSp, wt]
        omega
    obtain ⟨i1, i2, i3, i4⟩ := ih hA (by simp only; omega) (by intro j hj1 hj2; simp only at hj1 hj2; exact h2 j (by omega) hj2)
    refine ⟨?_, ?_, ?_, fun h => by omega⟩
    · have : k + 2 * (n + 1) = k + 2 + 2 * n := by omega
      rw [this]; exact i1
    · have e : p.input.span.start + w * (n + 1) = p.input.span.start + w + w * n := by omega
      rw [e]
      exact i2
    · intro _
      by_cases hn : n = 0
      · have i4' := i4 hn
        refine ⟨⟨.atom a, ⟨p.input.span.start, p.input.span.start + w⟩⟩, ?_, by simp⟩
        simp only [IP.pushSp] at i4' ⊢
        rw [i4']
        simp
      · exact i3 hn

theorem findEn_ok {len : Nat} (h3 : len % 3 ≠ 0) (h2 : len % 2 ≠ 0) (hl : 2 ≤ len) : ∃ n, findEn len 1 3 = .ok n ∧ 2 * n ≤ len ∧ (len - 2 * n) % 3 = 0 ∧ 1 ≤ n := by
  have : 5 ≤ len := by omega
  unfold findEn
  rw [csub_ok (by omega)]
  simp only [Bind.bind, Except.bind]
  split
  · rename_i h; exact ⟨1, rfl, by omega, h, Nat.le_refl _⟩
  · rename_i h
    unfold findEn
    rw [csub_ok (by omega)]
    simp only [Bind.bind, Except.bind]
    have h1 : len % 3 = 1 := by omega
    have : (len - 2 * (1 + 1)) % 3 = 0 := by omega
    rw [if_pos this]
    exact ⟨2, rfl, by omega, by omega, by omega⟩

theorem dashes_sum {len : Nat} (hl : 2 ≤ len) : ∃ d, dashes len = .ok d ∧ 3 * d.1 + 2 * d.2 = len ∧ (d.1 ≠ 0 ∨ d.2 ≠ 0) := by
  unfold dashes
  split
  · rename_i h; exact ⟨_, rfl, by simp only; omega, by simp only; omega⟩
  · split
    · rename_i h; exact ⟨_, rfl, by simp only; omega, by simp only; omega⟩
    · rename_i h3 h2
      obtain ⟨n, e1, e2, e3, e4⟩ := findEn_ok h3 h2 hl
      rw [e1]
      simp only [Bind.bind, Except.bind]
      rw [csub_ok e2]
      exact ⟨_, rfl, by simp only; omega, by simp only; omega⟩

theorem Mid.atoms {p : IP} {t : Lex.Token} (h : Mid c p t) (hv : p.verbatim = none) : Atoms c p 0 := by
  have hlay : Lay (nts c p) p.openers c.lo p.events p.input.span.start := by have := h.queue; rw [hv] at this; exact this
  have hpot := h.pot
  rw [pot_none hv] at hpot
  exact ⟨h.inp, h.attr, hv, hlay, h.evs, h.store, hpot, h.q, h.al⟩

theorem replicate_get {src : Bytes} {sp : Span} {x : UInt8} (hs : SpanOk src sp) (h : sliceOf src sp = List.replicate (sliceOf src sp).length x) :
    ∀ j, sp.start ≤ j → j < sp.stop → src[j]? = some x := by
  intro j h1 h2
  have hl : (sliceOf src sp).length = sp.stop - sp.start := slice_length (a := sp.start) (b := sp.stop) hs.len
  rw [hl] at h
  have h3 : (sliceOf src sp)[j - sp.start]? = some x := by
    rw [h, List.getElem?_replicate, if_pos (by omega)]
  obtain ⟨h4, _⟩ := slice_get (a := sp.start) (b := sp.stop) h3
  have : sp.start + (j - sp.start) = j := by omega
  rwa [this] at h4

theorem parseAtom_ok (hc : c.Ok) {p : IP} {t : Lex.Token} (h : Mid c p t) (hv : p.verbatim = none) :
    Sat Never (p.parseAtom t) (Res c (fun p' => Adv c (p'.push .str))) := by
  have hsp := h.inp.spanOk hc
  have hne := h.ne
  have hlen := hsp.len
  unfold IP.parseAtom
  split
  · rename_i hk
    obtain ⟨h1, h2⟩ := h.text (by rw [hk]; simp)
    rw [hk] at h1
    have hx := replicate_get hsp h1
    have hdiv : p.input.span.start + 3 * (p.input.span.len / 3) ≤ p.input.span.stop := by unfold Span.len; omega
    obtain ⟨a1, a2, a3, a4⟩ := repeatAtom_ok hc (x := Lex.Sequence.period.ch) (by decide) (a := .ellipsis) (fun _ _ => trivial) (w := 3) (by omega) rfl (h.atoms hv) hdiv hx
    rw [← ellipses_run] at a1 a2 a3 a4
    show Adv c ((p.ellipses (p.input.span.len / 3)).push .str)
    generalize hm : p.input.span.len / 3 = m at *
    generalize hp' : p.ellipses m = p' at *
    have hsp' := a1.inp.spanOk hc
    have hpot := a1.pot
    have hs : p'.input.span.start = p.input.span.start + 3 * m := by rw [a2]
    have he : p'.input.span.stop = p.input.span.stop := by rw [a2]
    refine ⟨⟨a1.inp, a1.attr, ?_, EvsOk.push a1.evs ⟨hsp', trivial, trivial⟩, a1.store, LastOk.append (fun _ => ?_), ?_, .none a1.verb⟩, a1.q, a1.al⟩
    · show QueueOk (nts c p') p'.verbatim p'.openers c.lo (p'.events ++ [_]) p'.input.span.stop
      rw [a1.verb]
      exact a1.lay.one (.inl rfl) ⟨Nat.le_refl _, hsp'.le⟩ (Nat.le_refl _)
    · rcases Nat.lt_or_ge p'.input.span.start p'.input.span.stop with h5 | h5
      · exact .inl h5
      · right
        unfold Span.len at hm
        refine ⟨by simp only; omega, ?_⟩
        have := hx (p'.input.span.start - 1) (by omega) (by omega)
        exact this
    · rw [pot_none (by exact a1.verb)]
      unfold Span.len at hm
      simp [IP.push, IP.pushSp, wt_str, Span.len]
      omega
  · split
    · rename_i hk
      obtain ⟨h1, h2⟩ := h.text (by rw [hk.1]; simp)
      rw [hk.1] at h1
      have hx := replicate_get hsp h1
      obtain ⟨d, d1, d2, d3⟩ := dashes_sum hk.2
      rw [d1]
      simp only [Bind.bind, Except.bind]
      unfold Span.len at h2
      obtain ⟨a1, a2, a3, a4⟩ := repeatAtom_ok hc (x := Lex.Sequence.hyphen.ch) (by decide) (a := .emDash) (fun _ _ => trivial) (w := 3) (by omega) rfl (h.atoms hv) (n := d.1) (by omega) hx
      have hs : (p.repeatAtom .emDash 3 d.1).input.span.start = p.input.span.start + 3 * d.1 := by rw [a2]
      have he : (p.repeatAtom .emDash 3 d.1).input.span.stop = p.input.span.stop := by rw [a2]
      obtain ⟨b1, b2, b3, b4⟩ := repeatAtom_ok hc (x := Lex.Sequence.hyphen.ch) (by decide) (a := .enDash) (fun _ _ => trivial) (w := 2) (by omega) rfl a1 (n := d.2) (by omega)
        (fun j j1 j2 => hx j (by omega) (by omega))
      refine Sat.pure ?_
      show Adv c ((p.repeatAtom .emDash 3 d.1).repeatAtom .enDash 2 d.2)
      generalize hp' : (p.repeatAtom .emDash 3 d.1).repeatAtom .enDash 2 d.2 = p' at *
      have hs' : p'.input.span.start = p'.input.span.stop := by rw [b2]; simp only; omega
      have hl : ∃ e, p'.events.getLast? = some e ∧ (e.kind ≠ .str ∧ e.kind ≠ .placeholder) := by
        by_cases h0 : d.2 = 0
        · rw [b4 h0]
          exact a3 (by omega)
        · exact b3 h0
      refine ⟨⟨b1.inp, b1.attr, ?_, b1.evs, b1.store, ?_, ?_, .none b1.verb⟩, b1.q, b1.al⟩
      · rw [b1.verb, ← hs']; exact b1.lay
      · intro e he
        obtain ⟨e', h1, h2⟩ := hl
        rw [h1] at he
        injection he with he
        subst he
        exact ⟨h2.2, fun hk => absurd hk h2.1⟩
      · rw [pot_none b1.verb, ← hs']
        have := b1.pot
        omega
    · cases ha : atomOf t.kind with
      | some a =>
        unfold atomOf at ha
        refine h.push hc hv (.inr ⟨a, rfl⟩) ?_ ?_
        · split at ha <;> simp at ha <;> subst ha <;> trivial
        · split at ha <;> simp at ha <;> subst ha
          all_goals
            rename_i hk
            have := (h.text (by rw [hk]; simp)).1
            rw [hk] at this
            first
              | exact this
              | exact .inl this
              | exact .inr this
              | exact .inr (.inl this)
              | exact .inr (.inr this)
      | none => exact h.push hc hv (.inl rfl) trivial trivial

/-! ## Any token -/

/-- The state and result after an event. -/
def Out (c : Cx) (r : IP × Flow) : Prop :=
  match r.2 with
  | .cont => Adv c r.1
  | .more => Pending c r.1
  | _ => False

/-- The parsers that come after the attributes. -/
theorem rest_ok (hc : c.Ok) {p : IP} {t : Lex.Token} (h : Mid c p t) (hv : p.verbatim = none) (hn : t.kind ≠ .text → p.input.lexer.next = none)
    (hbr : t.kind = .opn .bracket → sliceOf c.src p.input.span = b! "[") {x : R (IP × Option Flow)} (hx : Sat Never x (Res c (fun p' => p' = p))) :
    Sat Never (orElse (orElse (orElse (orElse (orElse x
      (fun p => p.parseAutolink t)) (fun p => p.parseSymbol t)) (fun p => p.parseFootnoteReference t)) (fun p => p.parseContainer t)) (fun p => p.parseAtom t))
      (Res c (fun p' => Adv c (p'.push .str))) := by
  have x1 := orElse_ok (N' := fun p' => p' = p) (f := fun p => p.parseAutolink t) hx (by rintro p' rfl; exact parseAutolink_ok hc h hv hn)
  have x2 := orElse_ok (N' := fun p' => p' = p) (f := fun p => p.parseSymbol t) x1 (by rintro p' rfl; exact parseSymbol_ok hc h hv hn)
  have x3 := orElse_ok (N' := fun p' => Mid c p' t ∧ p'.verbatim = none) (f := fun p => p.parseFootnoteReference t) x2 (by rintro p' rfl; exact parseFootnoteReference_ok hc h hv hbr)
  have x4 : Sat Never _ (Res c fun p' => Mid c p' t ∧ p'.verbatim = none) := orElse_ok x3 (f := fun p => p.parseContainer t) (by
    rintro p' ⟨h1, h2⟩
    refine (parseContainer_ok hc h1 h2).mono (fun r hr => hr.mono ?_)
    rintro _ rfl
    exact ⟨h1, h2⟩)
  exact orElse_ok (f := fun p => p.parseAtom t) x4 (by rintro p' ⟨h1, h2⟩; exact parseAtom_ok hc h1 h2)

theorem finish_ok {x : R (IP × Option Flow)} (h : Sat Never x (Res c (fun p' => Adv c (p'.push .str)))) :
    Sat Never (do
      let r ← x
      match r.2 with
      | some f => (Pure.pure (r.1, f) : R (IP × Flow))
      | none => Pure.pure (r.1.push .str, .cont)) (Out c) := by
  refine h.bind ?_
  intro r hr
  unfold Res at hr
  cases h1 : r.2 with
  | none => rw [h1] at hr; exact hr
  | some f => rw [h1] at hr; cases f <;> exact hr

theorem parseToken_ok (hc : c.Ok) {p : IP} {t : Lex.Token} (h : Mid c p t) (hn : t.kind ≠ .text → p.input.lexer.next = none)
    (hbr : t.kind = .opn .bracket → sliceOf c.src p.input.span = b! "[") :
    Sat Never (p.parseToken t) (Out c) := by
  unfold IP.parseToken
  refine finish_ok ?_
  by_cases hv : p.verbatim = none
  · refine rest_ok hc h hv hn hbr (orElse_ok (parseVerbatim_ok hc h) ?_)
    rintro p' ⟨rfl, _⟩
    exact parseAttributes_ok hc h hv
  · refine orElse_ok (N := fun _ => False) ?_ (fun _ h => h.elim)
    refine orElse_ok (N := fun _ => False) ?_ (fun _ h => h.elim)
    refine orElse_ok (N := fun _ => False) ?_ (fun _ h => h.elim)
    refine orElse_ok (N := fun _ => False) ?_ (fun _ h => h.elim)
    refine orElse_ok (N := fun _ => False) ?_ (fun _ h => h.elim)
    refine orElse_ok (N := fun _ => False) ?_ (fun _ h => h.elim)
    refine (parseVerbatim_ok hc h).mono (fun r hr => hr.mono ?_)
    rintro p' ⟨_, h2⟩
    exact hv h2

/-- Attributes go on after a line was fed. -/
theorem parseToken_resume (hc : c.Ok) {p : IP} {st : AttributesState} (h : Mid c { p with attributes := none } ⟨.opn .brace, 1⟩) (hv : p.verbatim = none)
    (ha : p.attributes = some st) (hn : p.input.lexer.next = none)
    (hr : Sat Never (({ p with attributes := none } : IP).resumeAttributes st true false) (Res c (fun p' => p' = { p with attributes := none }))) :
    Sat Never (p.parseToken ⟨.opn .brace, 1⟩) (Out c) := by
  unfold IP.parseToken
  refine finish_ok ?_
  refine rest_ok hc h hv (fun _ => hn) (fun h => by simp at h) ?_
  have h1 : p.parseVerbatim ⟨.opn .brace, 1⟩ = .ok (p, none) := by
    unfold IP.parseVerbatim
    rw [hv]
    simp
  rw [h1]
  unfold orElse
  simp only [Bind.bind, Except.bind]
  unfold IP.parseAttributes
  rw [ha]
  exact hr

end Jotdown.Inline
