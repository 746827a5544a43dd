import Verif.Proofs.InlEmit
/-! # Feeding lines and taking events -/
namespace Jotdown.Inline
open Jotdown
open Jotdown.Block
open Jotdown.Notation

variable {c : Cx}

/-! ## Bounds -/

theorem Live.congr {c' : Cx} {p : IP} (h : Live c p) (h1 : c'.src = c.src) (h2 : c'.cpl = c.cpl) (h3 : c'.H = c.H) (h4 : c'.more = c.more) (h5 : c'.lo = c.lo)
    (hk : Inline.pot c p p.input.span.stop ≤ c'.K) : Live c' p := by
  refine ⟨h.inp.congr h1 h2 h3 h4, h.attr, ?_, ?_, h.store, ?_, ?_, ?_⟩
  · unfold nts; rw [h1, h5]; exact h.queue
  · rw [h1]; exact h.evs
  · rw [h1]; exact h.last
  · unfold Inline.pot at *; rw [h1]; exact hk
  · unfold VLive; rw [h1]; exact h.vb

theorem Wait.congr {c' : Cx} {p : IP} {st : AttributesState} {n : Nat} (h : Wait c p st n) (h1 : c'.src = c.src) (h2 : c'.cpl = c.cpl) (h3 : c'.H = c.H) (h4 : c'.more = c.more) (h5 : c'.lo = c.lo)
    (hk : Inline.pot c p p.input.span.stop ≤ c'.K) : Wait c' p st n := by
  refine ⟨h.inp.congr h1 h2 h3 h4, h.attr, h.verb, ?_, ?_, h.store, ?_, ?_, h.tok, ?_, h.valid, ?_, ?_⟩
  · unfold nts; rw [h1, h5]; exact h.shape
  · rw [h1]; exact h.evs
  · rw [h1]; exact h.last
  · unfold Inline.pot at *; rw [h1]; exact hk
  · rw [h1]; exact h.found
  · rw [h1]; exact h.opn
  · rw [h1]; exact h.run

theorem Emitting.congr {c' : Cx} {p : IP} (h : Emitting c p) (h1 : c'.src = c.src) (h2 : c'.cpl = c.cpl) (h3 : c'.H = c.H) (h4 : c'.more = c.more)
    (hk : weight p.events + 3 * (c.src.length - p.input.span.stop) ≤ c'.K) : Emitting c' p := by
  refine ⟨h.inp.congr h1 h2 h3 h4, h.attr, h.verb, ?_, h.store, ?_, h.stay⟩
  · rw [h1]; exact h.evs
  · rw [h1]; exact hk

/-- Another bound for the number of events. -/
def Cx.bound (c : Cx) (K : Nat) : Cx := { c with K := K }

theorem Emit.bound {st : List Open} {p : IP} (h : Emit c st p) {K : Nat} (hk : c.K ≤ K) : Emit (c.bound K) st p :=
  ⟨h.base.congr rfl rfl rfl rfl (Nat.le_trans h.base.pot hk), h.tail⟩

theorem After.bound {st : List Open} {own : Attr.Attributes} {p : IP} (h : After c st own p) {K : Nat} (hk : c.K ≤ K) : After (c.bound K) st own p :=
  ⟨h.base.congr rfl rfl rfl rfl (Nat.le_trans h.base.pot hk), h.ex⟩

theorem Starved.bound {p : IP} (h : Starved c p) {K : Nat} (hk : c.K ≤ K) : Starved (c.bound K) p :=
  ⟨h.live.congr rfl rfl rfl rfl rfl (Nat.le_trans h.live.pot hk), h.stop, h.ahead, h.cpl⟩

theorem Pending.bound {p : IP} (h : Pending c p) {K : Nat} (hk : c.K ≤ K) : Pending (c.bound K) p := by
  obtain ⟨st, hw⟩ := h.wait
  exact ⟨⟨st, hw.congr rfl rfl rfl rfl rfl (Nat.le_trans hw.pot hk)⟩, h.cpl⟩

theorem Emitted.bound {st : List Open} {p : IP} {e : Event} (h : Emitted c st p e) {K : Nat} (hk : c.K ≤ K) : Emitted (c.bound K) st p e := by
  refine ⟨h.span, h.kindOk, h.text, ?_⟩
  have hn := h.next
  have hk' : c.K - 1 ≤ K - 1 := by omega
  have hp : ∀ st, Emit (c.past e) st p → Emit ((c.bound K).past e) st p := fun st h => h.bound (c := c.past e) (K := K - 1) hk'
  split at hn
  · exact ⟨hn.1, hp _ hn.2⟩
  · obtain ⟨h1, k, st', h2, h3, h4, h5⟩ := hn
    exact ⟨h1, k, st', h2, h3, h4, hp _ h5⟩
  · exact ⟨hn.1, hn.2.1, hp _ hn.2.2⟩
  · exact ⟨hn.1, hp _ hn.2⟩
  · obtain ⟨own, h1, h2⟩ := hn
    exact ⟨own, h1, After.bound (c := c.dec) (K := K - 1) h2 hk'⟩
  · exact hn.elim

/-! ## States -/

/-- An event can be asked for. -/
inductive Ready (c : Cx) : List Open → IP → Prop
  | live {p} : Live c p → Ready c [] p
  | fed {p} : Fed c p → Ready c [] p
  | emit {st p} : Emit c st p → Ready c st p

/-- All events were emitted. -/
structure Fin (c : Cx) (p : IP) : Prop where
  emit : Emit c [] p
  events : p.events = []
  last : p.input.last = true
  stop : p.input.span.stop = p.input.spanLine.stop

/-- The result of `next`. -/
def NextOut (c : Cx) (st : List Open) (p : IP) (r : IP × Option Event) : Prop :=
  (st ≠ [] → r.1.storeCowstrs = p.storeCowstrs ∧ r.1.storeAttributes = p.storeAttributes) ∧
  match r.2 with
  | some e => 1 ≤ c.K ∧ Emitted c st r.1 e
  | none => st = [] ∧ (Starved c r.1 ∨ Pending c r.1 ∨ Fin c r.1)

theorem NextOut.bound {st : List Open} {p : IP} {r : IP × Option Event} (h : NextOut c st p r) {K : Nat} (hk : c.K ≤ K) : NextOut (c.bound K) st p r := by
  refine ⟨h.1, ?_⟩
  have h2 := h.2
  split at h2
  · exact ⟨by have := h2.1; simp only [Cx.bound]; omega, h2.2.bound hk⟩
  · refine ⟨h2.1, ?_⟩
    rcases h2.2 with h3 | h3 | h3
    · exact .inl (h3.bound hk)
    · exact .inr (.inl (h3.bound hk))
    · exact .inr (.inr ⟨h3.emit.bound hk, h3.events, h3.last, h3.stop⟩)

theorem Live.emit {p : IP} (h : Live c p) (hn : p.needMore = false) : p.autoClose = .ok p ∧ Emit c [] p := by
  unfold IP.needMore at hn
  simp only [Bool.or_eq_false_iff] at hn
  obtain ⟨⟨⟨⟨h1, h2⟩, h3⟩, h4⟩, h5⟩ := hn
  have hv : p.verbatim = none := by
    cases hx : p.verbatim with
    | none => rfl
    | some v => rw [hx] at h3; simp at h3
  have ho : p.openers = [] := by
    cases hx : p.openers with
    | nil => rfl
    | cons a b => rw [hx] at h2; simp at h2
  have hq := h.queue
  rw [hv] at hq
  refine ⟨by unfold IP.autoClose; rw [hv], ⟨h.inp, h.attr, hv, h.evs, h.store, ?_, .inl ⟨ho, ?_⟩⟩, ?_⟩
  · have := h.pot
    rwa [pot_none hv] at this
  · intro e he hk
    rw [he] at h5
    simp [hk] at h5
  · exact (Lay.bal hq).toTail

theorem Final.emit {p : IP} (hc : c.Ok) (h : Final c p) : Sat Never p.autoClose (fun p' => Emit c [] p' ∧ p'.input.last = true ∧ p'.input.span.stop = p'.input.spanLine.stop) := by
  unfold IP.autoClose
  cases hv : p.verbatim with
  | none =>
    have hq := h.live.queue
    rw [hv] at hq
    have hp := h.live.pot
    rw [pot_none hv] at hp
    exact Sat.ok ⟨⟨⟨h.live.inp, h.live.attr, hv, h.live.evs, h.live.store, hp, .inr ⟨h.last, h.stop⟩⟩, (Lay.bal hq).toTail⟩, h.last, h.stop⟩
  | some v =>
    have hq := h.live.queue
    rw [hv] at hq
    obtain ⟨A, ph, op, S, ty, m, a1, a2, a3, a4, a5, a6, a7, a8, a9, a10, a11⟩ := hq.ex
    have hen : enterAt p.events v.eventOpener = .ok ty := by
      unfold enterAt
      rw [a1, a2, show A ++ ph :: op :: S = (A ++ [ph]) ++ op :: S by simp, idx_at (by simp)]
      simp only [Bind.bind, Except.bind]
      rw [a6]
      rfl
    simp only [hen, Bind.bind, Except.bind]
    obtain ⟨b1, pre, b2, b3⟩ := a7
    rw [show dassert ty.isVerbatim = .ok () by rw [verbPre_isVerbatim b2]; rfl]
    have hsp := h.live.inp.spanOk hc
    have hmem : EvOk c.src p.storeCowstrs.length p.storeAttributes.length op := h.live.evs op (by rw [a1]; simp)
    refine Sat.pure ⟨⟨⟨InpOk.lex h.live.inp (h.live.inp.rem.verbatim false), h.live.attr, rfl, ?_, h.live.store, ?_, .inr ⟨h.last, h.stop⟩⟩, ?_⟩, h.last, h.stop⟩
    · intro x hx
      simp only [List.mem_append, List.mem_singleton] at hx
      rcases hx with hx | rfl
      · exact h.live.evs x hx
      · exact ⟨hsp, by have := hmem.kind; rw [a6] at this; exact this, trivial⟩
    · have := h.live.pot
      unfold Inline.pot at this
      rw [hv] at this
      simp only [weight_append, weight_cons, weight_nil]
      rw [wt_kind (e := ⟨.exit ty, _⟩) (.inr (.inr (.inr (.inl ⟨_, rfl⟩))))]
      simp at this
      omega
    · have hno : NoRun v.lenOpener (sliceOf c.src ⟨op.span.stop, p.input.span.start⟩) := by
        rw [h.empty]
        exact noRun_slice (h.live.vb v op hv (by rw [a1, a2]; simp)).1 hsp.len a10.le
      have hends : Ends (nts c p) ty op.span p.input.span [] (linkText c.src S) := by
        refine ⟨[], [], ?_, ?_, .inl ⟨rfl, rfl⟩⟩
        · show sliceOf c.src p.input.span = _
          unfold sliceOf
          rw [h.empty]
          simp
        · cases ty <;> simp [verbPre] at b2 <;> subst b2 <;> exact ⟨v.lenOpener, b1, b3, .inr ⟨rfl, hno⟩⟩
      have hb : Bal (nts c p) c.lo (A ++ ph :: op :: (S ++ [⟨.exit ty, p.input.span⟩])) p.input.span.stop := by
        refine a3.bal.append (.leaf (.inr (.inl a4)) a5 (.node a6 rfl a8 ?_ hsp.le hends (.nil (Nat.le_refl _))))
        show Bal (nts c p) op.span.stop S p.input.span.start
        rw [h.empty]
        exact a10
      have := hb.toTail
      rw [show p.events ++ [(⟨.exit ty, p.input.span⟩ : Event)] = A ++ ph :: op :: (S ++ [⟨.exit ty, p.input.span⟩]) by rw [a1]; simp]
      exact this

/-- The loop when events can be emitted. -/
theorem fill_emit (hc : c.Ok) {st : List Open} {p : IP} (h : Emit c st p) {fuel : Nat} (hf : p.todo c.src.length < fuel) :
    Sat Never (p.fill fuel) (fun r => (r.2 = true ∧ Emit c st r.1 ∧ r.1.events = p.events ∧ r.1.storeCowstrs = p.storeCowstrs ∧ r.1.storeAttributes = p.storeAttributes ∧
      (p.events = [] → r.1.input.last = true ∧ r.1.input.span.stop = r.1.input.spanLine.stop)) ∨
      (st = [] ∧ p.events = [] ∧ FillOut c r)) := by
  cases hn : p.needMore with
  | false =>
    cases fuel with
    | zero => omega
    | succ fuel =>
      unfold IP.fill
      rw [hn]
      simp only [Bool.false_eq_true, if_false]
      refine Sat.ok (.inl ⟨rfl, h, rfl, rfl, rfl, ?_⟩)
      intro he
      unfold IP.needMore at hn
      rw [he] at hn
      simp at hn
  | true =>
    rcases h.base.stay with ⟨h1, h2⟩ | ⟨h1, h2⟩
    · have he : p.events = [] := by
        unfold IP.needMore at hn
        rw [h1, h.base.verb, h.base.attr] at hn
        simp only [List.isEmpty_nil, Bool.not_true, Bool.or_false, Option.isSome_none, Bool.or_eq_true] at hn
        rcases hn with hn | hn
        · simpa using hn
        · exfalso
          cases hl : p.events.getLast? with
          | none => rw [hl] at hn; simp at hn
          | some e =>
            rw [hl] at hn
            simp at hn
            exact h2 e hl hn
      have ht := h.tail
      rw [he] at ht
      cases ht with
      | nil hle =>
        have hl : Live c p := by
          refine ⟨h.base.inp, h.base.attr, ?_, h.base.evs, h.base.store, ?_, ?_, .none h.base.verb⟩
          · rw [h.base.verb, h1, he]; exact .base (.nil hle)
          · rw [he]; intro e he; simp at he
          · rw [pot_none h.base.verb]; exact h.base.pot
        refine (fill_ok hc fuel hl hf).mono ?_
        intro r hr
        exact .inr ⟨rfl, he, hr⟩
    · cases fuel with
      | zero => omega
      | succ fuel =>
        have hrem := h.base.inp.rem
        rw [h2, slice_nil] at hrem
        have hnt : (p.input.resetSpan.eat).1 = none := by
          unfold Input.eat
          have := hrem.nextTok_nil
          cases hx : p.input.resetSpan.lexer.nextTok with
          | mk o l =>
            have h3 : p.input.resetSpan.lexer.nextTok.1 = none := this
            rw [hx] at h3
            simp only at h3
            subst h3
            rfl
        obtain ⟨g1, g2, g3⟩ := h.base.inp.reset.eat_none hc hnt
        unfold IP.fill
        rw [hn]
        simp only [if_true]
        unfold IP.parseEvent
        simp only [hnt, h1, if_true, Bind.bind, Except.bind]
        refine Sat.pure (.inl ⟨rfl, ⟨⟨?_, h.base.attr, h.base.verb, h.base.evs, h.base.store, ?_, .inr ⟨?_, ?_⟩⟩, ?_⟩, rfl, rfl, rfl, fun _ => ⟨?_, ?_⟩⟩)
        · rw [g3]
          refine InpOk.lex h.base.inp.reset ?_
          have : sliceOf c.src ⟨p.input.resetSpan.span.stop, p.input.resetSpan.spanLine.stop⟩ = [] := by
            simp only [g1]; exact slice_nil
          rw [this]
          exact g2
        all_goals rw [g3]
        · exact h.base.pot
        · exact h1
        · exact h2
        · exact h.tail
        · exact h1
        · exact h2

theorem fillFuel_todo {p : IP} (h : p.input.src = c.src) : p.todo c.src.length < p.fillFuel := by
  unfold IP.fillFuel IP.todo
  rw [h]
  omega

/-- After the loop. -/
def AfterFill (c : Cx) (st : List Open) (p : IP) (p' : IP) : Prop :=
  Emit c st p' ∧ (st ≠ [] → p'.storeCowstrs = p.storeCowstrs ∧ p'.storeAttributes = p.storeAttributes) ∧
    (p'.events = [] → p'.input.last = true ∧ p'.input.span.stop = p'.input.spanLine.stop)

theorem autoClose_none {p : IP} (h : p.verbatim = none) : p.autoClose = .ok p := by
  unfold IP.autoClose; rw [h]

theorem FillOut.close (hc : c.Ok) {r : IP × Bool} (h : FillOut c r) (ht : r.2 = true) (p : IP) : Sat Never r.1.autoClose (AfterFill c [] p) := by
  unfold FillOut at h
  rw [ht] at h
  rcases h with ⟨h1, h2⟩ | h
  · obtain ⟨g1, g2⟩ := h1.emit h2
    rw [g1]
    refine Sat.ok ⟨g2, fun hx => absurd rfl hx, ?_⟩
    intro he
    unfold IP.needMore at h2
    rw [he] at h2
    simp at h2
  · exact (h.emit hc).mono (fun p' hp' => ⟨hp'.1, fun hx => absurd rfl hx, fun _ => hp'.2⟩)

theorem ready_fill (hc : c.Ok) {st : List Open} {p : IP} (h : Ready c st p) :
    Sat Never (p.fill p.fillFuel) (fun r => if r.2 then Sat Never r.1.autoClose (AfterFill c st p) else st = [] ∧ (Starved c r.1 ∨ Pending c r.1)) := by
  cases h with
  | live h =>
    refine (fill_ok hc _ h (fillFuel_todo h.inp.src)).mono ?_
    intro r hr
    split
    · rename_i ht; exact hr.close hc ht p
    · rename_i ht
      unfold FillOut at hr
      simp at ht
      rw [ht] at hr
      exact ⟨rfl, hr⟩
  | fed h =>
    obtain ⟨_, _, hw, _⟩ := h.wait
    refine (fill_fed hc h (fillFuel_todo hw.inp.src)).mono ?_
    intro r hr
    split
    · rename_i ht; exact hr.close hc ht p
    · rename_i ht
      unfold FillOut at hr
      simp at ht
      rw [ht] at hr
      exact ⟨rfl, hr⟩
  | emit h =>
    refine (fill_emit hc h (fillFuel_todo h.base.inp.src)).mono ?_
    intro r hr
    rcases hr with ⟨h1, h2, h3, h4, h5, h6⟩ | ⟨rfl, h2, hr⟩
    · rw [h1]
      simp only [if_true]
      rw [autoClose_none h2.base.verb]
      exact Sat.ok ⟨h2, fun _ => ⟨h4, h5⟩, fun he => h6 (by rw [← h3, he])⟩
    · split
      · rename_i ht; exact hr.close hc ht p
      · rename_i ht
        unfold FillOut at hr
        simp at ht
        rw [ht] at hr
        exact ⟨rfl, hr⟩

theorem Cx.Ok.bound (hc : c.Ok) (K : Nat) : (c.bound K).Ok := ⟨hc.safe, hc.bd, hc.le⟩
theorem Cx.Ok.past (hc : c.Ok) (e : Event) : (c.past e).Ok := ⟨hc.safe, hc.bd, hc.le⟩

theorem next_ok : ∀ (fuel : Nat) {c : Cx} (_ : c.Ok) {st : List Open} {p : IP}, Ready c st p → c.K < fuel → Sat Never (p.next fuel) (NextOut c st p) := by
  intro fuel
  induction fuel with
  | zero => intro c _ st p _ h; omega
  | succ fuel ih =>
    intro c hc st p h hf
    unfold IP.next
    refine (ready_fill hc h).bind ?_
    intro r hr
    split
    · rename_i ht
      rw [ht] at hr
      simp only [if_true] at hr
      refine hr.bind ?_
      intro p1 ⟨h1, h2, h3⟩
      split
      · rename_i he
        have ht := h1.tail
        rw [he] at ht
        obtain ⟨h4, h5⟩ := h3 he
        have hst : st = [] := by
          generalize hx : c.lo = lo at ht
          cases ht; rfl
        exact Sat.pure ⟨h2, hst, .inr (.inr ⟨by rw [← hst]; exact h1, he, h4, h5⟩)⟩
      · rename_i e rest he
        refine (emit_ok hc h1 he).bind ?_
        intro r2 ⟨g1, g2, g3⟩
        have hsame : st ≠ [] → r2.1.storeCowstrs = p.storeCowstrs ∧ r2.1.storeAttributes = p.storeAttributes := by
          intro hne
          obtain ⟨a, b⟩ := h2 hne
          exact ⟨by rw [g1, a], by rw [g2, b]⟩
        have hK : 1 ≤ c.K := by
          have := h1.base.pot
          rw [he, weight_cons] at this
          have := wt_pos e
          omega
        split
        · rename_i e' he'
          rw [he'] at g3
          exact Sat.pure ⟨hsame, hK, g3⟩
        · rename_i he'
          rw [he'] at g3
          have := ih (c := c.dec) (hc.bound _) (.emit g3) (by simp only [Cx.dec]; omega)
          refine this.mono ?_
          intro r3 hr3
          have h5 := hr3.bound (K := c.K) (by simp only [Cx.dec]; omega)
          refine ⟨?_, h5.2⟩
          intro hne
          obtain ⟨a, b⟩ := h5.1 hne
          obtain ⟨a', b'⟩ := hsame hne
          exact ⟨by rw [a, a'], by rw [b, b']⟩
    · rename_i ht
      simp only [Bool.not_eq_true] at ht
      rw [ht] at hr
      simp only [Bool.false_eq_true, if_false] at hr
      refine Sat.pure ⟨fun hne => absurd hr.1 hne, hr.1, ?_⟩
      rcases hr.2 with h | h
      · exact .inl h
      · exact .inr (.inl h)

/-! ## The iterator -/

/-- Bound for the events of a state. -/
def IP.rank (c : Cx) (p : IP) : Nat := weight p.events + 3 * (c.src.length - p.input.span.stop) + 1

theorem rank_fuel {p : IP} (h : p.input.src = c.src) : p.rank c < p.eventFuel := by
  unfold IP.rank IP.eventFuel
  have := weight_le p.events
  rw [h]
  omega

theorem Ready.rank {st : List Open} {p : IP} (h : Ready c st p) : Ready (c.bound (min c.K (p.rank c))) st p ∧ p.input.src = c.src := by
  cases h with
  | live h =>
    refine ⟨.live (h.congr rfl rfl rfl rfl rfl ?_), h.inp.src⟩
    have := h.pot
    have : pot c p p.input.span.stop ≤ p.rank c := by unfold Inline.pot IP.rank; split <;> omega
    simp only [Cx.bound]
    omega
  | fed h =>
    obtain ⟨st, n, hw, hn⟩ := h.wait
    refine ⟨.fed ⟨st, n, hw.congr rfl rfl rfl rfl rfl ?_, hn⟩, hw.inp.src⟩
    have := hw.pot
    have : pot c p p.input.span.stop ≤ p.rank c := by unfold Inline.pot IP.rank; split <;> omega
    simp only [Cx.bound]
    omega
  | emit h =>
    refine ⟨.emit ⟨h.base.congr rfl rfl rfl rfl ?_, h.tail⟩, h.base.inp.src⟩
    have := h.base.pot
    simp only [Cx.bound]
    unfold IP.rank
    omega

/-- The next event. -/
theorem nextEvent_ok (hc : c.Ok) {st : List Open} {p : IP} (h : Ready c st p) : Sat Never p.nextEvent (NextOut c st p) := by
  obtain ⟨h1, h2⟩ := h.rank
  unfold IP.nextEvent
  have := rank_fuel h2
  refine (next_ok _ (hc.bound _) h1 (by simp only [Cx.bound]; omega)).mono ?_
  intro r hr
  exact hr.bound (K := c.K) (by simp only [Cx.bound]; omega)

/-- The event after attributes. -/
structure Taken (c : Cx) (st : List Open) (own : Attr.Attributes) (p : IP) (r : IP × Option Event) : Prop where
  cow : r.1.storeCowstrs = p.storeCowstrs
  attrs : r.1.storeAttributes = p.storeAttributes
  ev : ∃ e, r.2 = some e ∧ SpanOk c.src e.span ∧ c.lo ≤ e.span.start ∧ KindOk r.1.storeCowstrs.length r.1.storeAttributes.length e.kind ∧
    ((e.kind = .empty ∧ WrittenAttrs (sliceOf c.src e.span) own ∧ Emit (c.past e) st r.1) ∨
      ∃ x, e.kind = .enter x ∧ Emit (c.past e) (⟨x, e.span, own, []⟩ :: st) r.1)

theorem nextEvent_after (hc : c.Ok) {st : List Open} {own : Attr.Attributes} {p : IP} (h : After c st own p) : Sat Never p.nextEvent (Taken c st own p) := by
  obtain ⟨e, es, h1, h2, h3⟩ := h.ex
  obtain ⟨fuel, hfu⟩ : ∃ fuel, p.eventFuel = fuel + 1 := ⟨p.eventFuel - 1, by unfold IP.eventFuel; omega⟩
  unfold IP.nextEvent
  rw [hfu]
  unfold IP.next
  have hfuel : ∃ f, p.fillFuel = f + 1 := ⟨p.fillFuel - 1, by unfold IP.fillFuel; omega⟩
  have hfill : Sat Never (p.fill p.fillFuel) (fun r => r.2 = true ∧ Emitting c r.1 ∧ r.1.events = p.events ∧ r.1.storeCowstrs = p.storeCowstrs ∧ r.1.storeAttributes = p.storeAttributes ∧
      r.1.input.span.stop = p.input.span.stop) := by
    obtain ⟨f, hf⟩ := hfuel
    rw [hf]
    cases hn : p.needMore with
    | false =>
      unfold IP.fill
      rw [hn]
      exact Sat.ok ⟨rfl, h.base, rfl, rfl, rfl, rfl⟩
    | true =>
      rcases h.base.stay with ⟨g1, g2⟩ | ⟨g1, g2⟩
      · exfalso
        unfold IP.needMore at hn
        rw [g1, h.base.verb, h.base.attr] at hn
        simp only [List.isEmpty_nil, Bool.not_true, Bool.or_false, Option.isSome_none, Bool.or_eq_true] at hn
        rcases hn with hn | hn
        · rw [h1] at hn; simp at hn
        · cases hl : p.events.getLast? with
          | none => rw [hl] at hn; simp at hn
          | some e =>
            rw [hl] at hn
            simp at hn
            exact g2 e hl hn
      · have hrem := h.base.inp.rem
        rw [g2, slice_nil] at hrem
        have hnt : (p.input.resetSpan.eat).1 = none := by
          unfold Input.eat
          have := hrem.nextTok_nil
          cases hx : p.input.resetSpan.lexer.nextTok with
          | mk o l =>
            have h3 : p.input.resetSpan.lexer.nextTok.1 = none := this
            rw [hx] at h3
            simp only at h3
            subst h3
            rfl
        obtain ⟨k1, k2, k3⟩ := h.base.inp.reset.eat_none hc hnt
        unfold IP.fill
        rw [hn]
        simp only [if_true]
        unfold IP.parseEvent
        simp only [hnt, g1, if_true, Bind.bind, Except.bind]
        refine Sat.pure ⟨rfl, ⟨?_, h.base.attr, h.base.verb, h.base.evs, h.base.store, ?_, .inr ⟨?_, ?_⟩⟩, rfl, rfl, rfl, ?_⟩
        · rw [k3]
          refine InpOk.lex h.base.inp.reset ?_
          have : sliceOf c.src ⟨p.input.resetSpan.span.stop, p.input.resetSpan.spanLine.stop⟩ = [] := by
            simp only [k1]; exact slice_nil
          rw [this]
          exact k2
        all_goals rw [k3]
        · exact h.base.pot
        · exact g1
        · exact g2
        · rfl
  refine hfill.bind ?_
  intro r ⟨r1, r2, r3, r4, r5, r6⟩
  rw [r1]
  simp only [if_true]
  rw [autoClose_none r2.verb]
  simp only [Bind.bind, Except.bind]
  rw [r3, h1]
  simp only
  have hev : ∀ x ∈ es, EvOk c.src r.1.storeCowstrs.length r.1.storeAttributes.length x := fun x hx => r2.evs x (by rw [r3, h1]; simp [hx])
  have hee : EvOk c.src r.1.storeCowstrs.length r.1.storeAttributes.length e := r2.evs e (by rw [r3, h1]; simp)
  have hset : Emitting (c.past e) { r.1 with events := es } := r2.set (lo := e.span.stop) hev (by rw [r3, h1, weight_cons]; have := wt_pos e; omega)
    (fun x hx => .inl (by rw [r3, h1]; exact last_of_append (A := [e]) hx))
  have hemit : ({ r.1 with events := es } : IP).emit e = .ok ({ r.1 with events := es }, some e) := by
    unfold IP.emit
    rcases h3 with ⟨h3, _⟩ | ⟨x, h3, _⟩ <;> rw [h3]
  rw [hemit]
  refine Sat.pure ⟨r4, r5, e, rfl, hee.span, h2.1, hee.kind, ?_⟩
  have hle : (nts c p).Le (nts c { r.1 with events := es }) := ⟨rfl, fun i v hv => by simp only [nts, r4] at *; exact hv, fun i v hv => by simp only [nts, r5] at *; exact hv⟩
  rcases h3 with ⟨h3, hw, h4⟩ | ⟨x, h3, h4⟩
  · exact .inl ⟨h3, hw, hset, by simp only [r6]; exact h4.mono hle⟩
  · exact .inr ⟨x, h3, hset, by simp only [r6]; exact h4.mono hle⟩

/-! ## No line -/

/-- No event is left. -/
structure Rest (src : Bytes) (p : IP) : Prop where
  src_eq : p.input.src = src
  events : p.events = []
  attr : p.attributes = none
  verb : p.verbatim = none
  ahead : p.input.ahead = []
  rem : Lex.Rem p.input.lexer []

/-- Before the first line. -/
structure Idle (src : Bytes) (p : IP) : Prop where
  rest : Rest src p
  cpl : p.input.complete = false
  openers : p.openers = []
  cow : p.storeCowstrs = []
  attrs : p.storeAttributes = []

theorem Fin.rest {p : IP} (h : Fin c p) : Rest c.src p := by
  refine ⟨h.emit.base.inp.src, h.events, h.emit.base.attr, h.emit.base.verb, (last_eq.1 h.last).2, ?_⟩
  have := h.emit.base.inp.rem
  rwa [h.stop, slice_nil] at this

theorem Idle.new (src : Bytes) : Idle src (IP.new src) :=
  ⟨⟨rfl, rfl, rfl, rfl, rfl, .new (by simp) trivial⟩, rfl, rfl, rfl, rfl⟩

theorem Rest.reset {src : Bytes} {p : IP} (h : Rest src p) : Sat Never p.reset (Idle src) := by
  unfold IP.reset
  rw [h.events, h.attr, h.verb]
  exact Sat.ok ⟨⟨h.src_eq, rfl, rfl, rfl, rfl, .new (by simp) trivial⟩, rfl, rfl, rfl, rfl⟩

/-- There is no event. -/
theorem Rest.next {src : Bytes} {p : IP} (h : Rest src p) : ∃ p', p.nextEvent = .ok (p', none) ∧ Rest src p' ∧
    p'.input.complete = p.input.complete ∧ p'.openers = p.openers ∧ p'.storeCowstrs = p.storeCowstrs ∧ p'.storeAttributes = p.storeAttributes := by
  obtain ⟨fuel, hfu⟩ : ∃ fuel, p.eventFuel = fuel + 1 := ⟨p.eventFuel - 1, by unfold IP.eventFuel; omega⟩
  obtain ⟨f, hf⟩ : ∃ f, p.fillFuel = f + 1 := ⟨p.fillFuel - 1, by unfold IP.fillFuel; omega⟩
  have hnt : p.input.resetSpan.lexer.nextTok.1 = none := h.rem.nextTok_nil
  have hrem : Lex.Rem p.input.resetSpan.lexer.nextTok.2 [] := (h.rem.nextTok_none h.rem.nextTok_nil).2
  have heat : p.input.resetSpan.eat = (none, { p.input.resetSpan with lexer := p.input.resetSpan.lexer.nextTok.2 }) := by
    unfold Input.eat
    cases hx : p.input.resetSpan.lexer.nextTok with
    | mk o l => rw [hx] at hnt; simp only at hnt; subst hnt; rfl
  have hn : p.needMore = true := by unfold IP.needMore; rw [h.events]; rfl
  generalize hi : ({ p.input.resetSpan with lexer := p.input.resetSpan.lexer.nextTok.2 } : Input) = i' at heat
  have hsrc : i'.src = p.input.src := by rw [← hi]; rfl
  have hah : i'.ahead = p.input.ahead := by rw [← hi]; rfl
  have hcp : i'.complete = p.input.complete := by rw [← hi]; rfl
  have hlx : Lex.Rem i'.lexer [] := by rw [← hi]; exact hrem
  refine ⟨{ p with input := i' }, ?_, ⟨by rw [← h.src_eq]; exact hsrc, h.events, h.attr, h.verb, by rw [← h.ahead]; exact hah, hlx⟩, hcp, rfl, rfl, rfl⟩
  unfold IP.nextEvent
  rw [hfu]
  unfold IP.next
  rw [hf]
  unfold IP.fill
  rw [hn]
  simp only [if_true]
  unfold IP.parseEvent
  rw [heat]
  simp only [Bind.bind, Except.bind]
  cases hl : p.input.last with
  | true =>
    simp only [if_true, Pure.pure, Except.pure]
    rw [autoClose_none (by exact h.verb)]
    simp only
    rw [h.events]
  | false =>
    simp only [Bool.false_eq_true, if_false]
    rw [hah, h.ahead]
    rfl

theorem Idle.next {src : Bytes} {p : IP} (h : Idle src p) : ∃ p', p.nextEvent = .ok (p', none) ∧ Idle src p' := by
  obtain ⟨p', h1, h2, h3, h4, h5, h6⟩ := h.rest.next
  exact ⟨p', h1, h2, by rw [h3, h.cpl], by rw [h4, h.openers], by rw [h5, h.cow], by rw [h6, h.attrs]⟩

/-! ## Feeding a line -/

theorem feedLine_empty {src : Bytes} {i : Input} (hs : i.src = src) (hc : i.complete = false) (hr : Lex.Rem i.lexer []) (ha : i.ahead = [])
    {l : Span} (hl : SpanOk src l) (last : Bool) :
    i.feedLine l last = .ok { i with complete := last, lexer := Lex.Lexer.new (sliceOf src l), span := ⟨l.start, l.start⟩, spanLine := l } := by
  unfold Input.feedLine
  rw [hc]
  have h1 := hr.ahead
  simp only [dassert, Bool.not_false, if_true, Bind.bind, Except.bind]
  rw [h1]
  simp only [List.isEmpty_nil, if_true]
  rw [ha]
  simp only
  rw [setCurrentLine_ok (src := src) (by exact hs) hl]

theorem lineInp (hs : Safe c.src) {i : Input} (h1 : i.src = c.src) {l : Span} (hl : SpanOk c.src l) (hH : c.H = l.stop) (hm : c.more = true → NlStop c.src l.stop) (ha : i.ahead = []) :
    InpOk c { i with complete := c.cpl, lexer := Lex.Lexer.new (sliceOf c.src l), span := ⟨l.start, l.start⟩, spanLine := l } := by
  refine ⟨h1, rfl, Nat.le_refl _, hl.le, hl.bs, hl.bs, hl.be, .new (bd_slice hl.bs) (safe_slice hs), ?_, ?_, .inl (Nat.le_refl _)⟩
  · simp only [ha, hH]; exact .nil (Nat.le_refl _)
  · simp only [ha]
    refine ⟨by simp, ?_⟩
    intro l' hl' h
    simp at hl'
    subst hl'
    exact hm (h.resolve_right (by omega))

theorem Idle.feed {p : IP} (h : Idle c.src p) (hs : Safe c.src) {l : Span} (hl : SpanOk c.src l) (hH : c.H = l.stop) (hlo : c.lo ≤ l.start)
    (hm : c.more = true → NlStop c.src l.stop) (hK : 3 * c.src.length ≤ c.K) :
    Sat Never (p.feedLine l c.cpl) (Live c) := by
  unfold IP.feedLine
  rw [feedLine_empty h.rest.src_eq h.cpl h.rest.rem h.rest.ahead hl]
  simp only [Bind.bind, Except.bind]
  refine Sat.pure ⟨lineInp hs h.rest.src_eq hl hH hm h.rest.ahead, h.rest.attr, ?_, ?_, ?_, ?_, ?_, .none h.rest.verb⟩
  · show QueueOk (nts c _) p.verbatim p.openers c.lo p.events _
    rw [h.rest.verb, h.openers, h.rest.events]
    exact .base (.nil hlo)
  · intro e he
    simp only [h.rest.events] at he
    simp at he
  · intro a ha
    simp only [h.attrs] at ha
    simp at ha
  · simp only [h.rest.events]
    intro e he
    simp at he
  · rw [pot_none (by exact h.rest.verb)]
    simp only [h.rest.events, weight_nil]
    omega

/-- After a line. -/
def Cx.line (c : Cx) (l : Span) (last more : Bool) : Cx := { c with H := l.stop, cpl := last, more := more }

/-- A line that is added starts after a line break. -/
theorem Lines.line {N M : Notes} {hi n : Nat} {l : Span} (hs : M.src = N.src) (hM : ∀ x ∈ M.lines, x ∈ N.lines ∨ x = l) (hhi : hi ≤ n)
    (hn : l.start < l.stop → NlStop N.src n) (hl : n ≤ l.start) (hlen : l.stop ≤ N.src.length) : Lines N M hi := by
  intro y h1 h2 h3 h4 x hx hne
  rw [hs]
  rcases hM x hx with hx | rfl
  · exact h4 x hx hne
  right; left
  rcases hn hne with hn | ⟨hn1, hn2⟩
  · omega
  have hy : y.stop ≠ n := by
    intro hyn
    have key : ∀ b : UInt8, sliceOf N.src y = [b] → b = c! '\n' := by
      intro b hb
      have e1 : (sliceOf N.src ⟨y.start, y.stop⟩).length = y.stop - y.start := slice_length (by omega)
      rw [show (⟨y.start, y.stop⟩ : Span) = y from rfl, hb] at e1
      simp at e1
      have e2 := slice_get (src := N.src) (a := y.start) (b := y.stop) (n := 0) (x := b) (by rw [show (⟨y.start, y.stop⟩ : Span) = y from rfl, hb]; rfl)
      rw [show y.start + 0 = n - 1 by omega, hn2] at e2
      simpa using e2.1.symm
    rcases h3 with h3 | h3
    · exact absurd (key _ h3) (by decide)
    · exact absurd (key _ h3) (by decide)
  exact mem_slice hn2 (by omega) (by omega)

theorem Starved.feed (hc : c.Ok) {p : IP} (h : Starved c p) {l : Span} (hl : SpanOk c.src l) (hH : c.H ≤ l.start) {last more : Bool}
    (hne : c.H < l.stop → c.more = true) (hm : more = true → NlStop c.src l.stop) :
    Sat Never (p.feedLine l last) (Live (c.line l last more)) := by
  have hrem := h.live.inp.rem
  rw [h.stop, slice_nil] at hrem
  have hle : p.input.span.stop ≤ l.start := by
    have := h.live.inp.chain.le
    have := h.stop
    omega
  unfold IP.feedLine
  rw [feedLine_empty h.live.inp.src (by rw [h.live.inp.cpl, h.cpl]) hrem h.ahead hl]
  simp only [Bind.bind, Except.bind]
  have hnl : p.input.spanLine.stop < l.stop → NlStop c.src p.input.spanLine.stop := by
    intro hlt
    refine h.live.inp.nl.2 _ (by simp) ?_
    by_cases hx : c.H < l.stop
    · exact .inl (hne hx)
    · exact .inr (by omega)
  refine Sat.pure ⟨lineInp (c := c.line l last more) hc.safe h.live.inp.src hl rfl hm h.ahead, h.live.attr, ?_, h.live.evs, h.live.store, h.live.last, ?_, ?_⟩
  · refine (h.live.queue.notes (N := nts c p) (M := ⟨c.src, p.storeCowstrs, p.storeAttributes, l :: p.input.ahead⟩) ⟨rfl, fun _ _ h => h, fun _ _ h => h⟩ (.line (n := p.input.span.stop) (l := l) rfl ?_ (Nat.le_refl _) ?_ hle hl.len)).hi hle
    · intro x hx
      right
      simpa [nts, h.ahead] using hx
    · intro hlt
      rw [h.stop]
      exact hnl (by have := h.stop; omega)
  · have := h.live.pot
    unfold Inline.pot at *
    simp only [Cx.line] at *
    omega
  · exact VLive.line (p := p) (c := c.line l last more) h.live.queue h.live.evs h.live.vb hle hl.le hl.len (by rw [h.stop]; exact hnl) rfl rfl rfl rfl

theorem Chain.push {src : Bytes} {n H : Nat} {ls : List Span} (h : Chain src n ls H) {l : Span} (hl : SpanOk src l) (hH : H ≤ l.start) : Chain src n (ls ++ [l]) l.stop := by
  induction h with
  | nil h => exact .cons (by omega) hl (.nil (Nat.le_refl _))
  | cons h1 h2 _ ih => exact .cons h1 h2 (ih hH)

theorem Pending.feed {p : IP} (h : Pending c p) {l : Span} (hl : SpanOk c.src l) (hH : c.H ≤ l.start) {last more : Bool}
    (hne : c.H < l.stop → c.more = true) (hm : more = true → c.more = true ∧ NlStop c.src l.stop) :
    Sat Never (p.feedLine l last) (Fed (c.line l last more)) := by
  obtain ⟨st, hw⟩ := h.wait
  unfold IP.feedLine Input.feedLine
  rw [hw.inp.cpl, h.cpl]
  simp only [dassert, Bool.not_false, if_true, Bind.bind, Except.bind]
  have hx := hw.inp.rem.ahead
  rw [hx]
  simp only
  have hnil : (sliceOf c.src ⟨p.input.span.stop, p.input.spanLine.stop⟩).isEmpty = false := by
    cases hs : sliceOf c.src ⟨p.input.span.stop, p.input.spanLine.stop⟩ with
    | cons a b => rfl
    | nil =>
      have := hw.inp.rem
      rw [hs] at this
      have h1 := this.nextTok_nil
      rw [hw.tok] at h1
      cases h1
  rw [hnil]
  simp only [Bool.false_eq_true, if_false]
  have hlines : ∀ s, Input.lines { p.input with complete := last, ahead := p.input.ahead ++ [l] } s = p.input.lines s ++ [l] := by
    intro s; simp [Input.lines]
  have hlen : p.input.ahead.length < (p.input.lines p.input.span.stop).length := by simp [Input.lines]
  have hold : ∀ a ∈ p.input.spanLine :: p.input.ahead, a.stop < l.stop → NlStop c.src a.stop := by
    intro a ha hlt
    refine hw.inp.nl.2 a ha ?_
    by_cases hx : c.H < l.stop
    · exact .inl (hne hx)
    · exact .inr (by omega)
  refine Sat.pure ⟨st, p.input.ahead.length, ⟨?_, hw.attr, hw.verb, ?_, hw.evs, hw.store, hw.last, ?_, hw.tok, ?_, hw.valid, hw.opn, ?_⟩, by simp⟩
  · refine ⟨hw.inp.src, rfl, hw.inp.le, hw.inp.stop, hw.inp.bs, hw.inp.be, hw.inp.bl, hw.inp.rem, hw.inp.chain.push hl hH, ?_, hw.inp.ls⟩
    refine ⟨?_, ?_⟩
    · show (p.input.spanLine :: (p.input.ahead ++ [l])).Pairwise (NlPair c.src)
      rw [← List.cons_append, List.pairwise_append]
      refine ⟨hw.inp.nl.1, by simp, ?_⟩
      intro a ha b hb
      simp at hb
      subst hb
      intro hlt
      exact hold a ha hlt
    · intro a ha hmore
      have ha' : a ∈ (p.input.spanLine :: p.input.ahead) ++ [l] := ha
      rcases List.mem_append.1 ha' with ha' | ha'
      · rcases hmore with hmore | hmore
        · exact hw.inp.nl.2 a ha' (.inl (hm hmore).1)
        · exact hold a ha' hmore
      · simp at ha'
        subst ha'
        rcases hmore with hmore | hmore
        · exact (hm hmore).2
        · exact absurd hmore (Nat.lt_irrefl _)
  · have h1 := hw.inp.chain.le
    refine hw.shape.notes (N := nts c p) (M := ⟨c.src, p.storeCowstrs, p.storeAttributes, p.input.spanLine :: (p.input.ahead ++ [l])⟩) ⟨rfl, fun _ _ h => h, fun _ _ h => h⟩ (.line (n := p.input.spanLine.stop) (l := l) rfl ?_ hw.inp.stop ?_ (by omega) hl.len)
    · intro x hx
      have hx' : x ∈ p.input.spanLine :: (p.input.ahead ++ [l]) := hx
      rw [← List.cons_append] at hx'
      rcases List.mem_append.1 hx' with h | h
      · exact .inl h
      · right; simpa using h
    · intro hlt
      exact hold _ (by simp) (by omega)
  · exact hw.pot
  · have := hw.found.snoc (M := [l])
    show Found c.src (Input.lines _ _) _ _ _
    rw [hlines]
    exact this
  · obtain ⟨s0, g1, g2⟩ := hw.run
    refine ⟨s0, ?_, g2⟩
    show Attr.srun .start (textTo c.src (Input.lines _ _) _ (stopAt (Input.lines _ _) _)) = _
    rw [hlines, textTo_snoc hlen]
    unfold stopAt at *
    rw [List.getElem?_append_left hlen]
    exact g1

end Jotdown.Inline
