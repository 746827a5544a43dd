import Verif.Proofs.SimEager
/-! # Runs of the inline parser that keep all events -/
namespace Jotdown.Inline
open Jotdown
open Jotdown.Block
open Jotdown.Notation

def LazyAfter (L : List Span → IP → IP → Prop) (ls : List Span) (r : IP × Flow) (f : IP) : Prop :=
  match r.2 with
  | .cont => L ls r.1 f
  | .done => ls = [] ∧ r.1.autoClose = .ok f
  | .more => ∃ l ls' q, ls = l :: ls' ∧ r.1.feedLine l ls'.isEmpty = .ok q ∧ L ls' q f
  | .next => (∃ l rest q, r.1.input.ahead = l :: rest ∧ r.1.nextLine l rest = .ok q ∧ L ls q f) ∨
      (r.1.input.ahead = [] ∧ ∃ l ls' q, ls = l :: ls' ∧ r.1.feedLine l ls'.isEmpty = .ok q ∧ L ls' q f)

/-- The parser reads all lines and ends in the state `f`. -/
def Lazy : Nat → List Span → IP → IP → Prop
  | 0, _, _, _ => False
  | n + 1, ls, p, f => ∃ r, p.parseEvent = .ok r ∧ LazyAfter (Lazy n) ls r f

/-- The lines follow each other. -/
inductive LinesFrom (src : Bytes) : Nat → Bool → List Span → Prop
  | nil {H more} : LinesFrom src H more []
  | cons {H more more' l ls} : SpanOk src l → H ≤ l.start → (H < l.stop → more = true) → (more' = true → more = true ∧ NlStop src l.stop) →
      LinesFrom src l.stop more' ls → LinesFrom src H more (l :: ls)

/-- A parser that has some lines to read. -/
structure Going (src : Bytes) (c : Cx) (ls : List Span) (w : IP) : Prop where
  ok : c.Ok
  src_eq : c.src = src
  alive : Alive c w
  cpl : c.cpl = ls.isEmpty
  lines : LinesFrom src c.H c.more ls

variable {D : List Event} {E : Nat} {m : Mode} {c : Cx} {src : Bytes}

theorem Going.event {ls : List Span} {w : IP} (h : Going src c ls w) : ∃ r, w.parseEvent = .ok r ∧ EvOut c w r :=
  (h.alive.event h.ok).exists_ok

theorem Going.cont {ls : List Span} {w w' : IP} (h : Going src c ls w) (hw : EvOut c w (w', .cont)) : Going src (c.step w) ls w' :=
  ⟨h.ok.step w, h.src_eq, .inl hw.live, h.cpl, h.lines⟩

theorem Going.next {ls : List Span} {w w' : IP} {l : Span} {rest : List Span} (h : Going src c ls w) (hw : EvOut c w (w', .next)) (ha : w'.input.ahead = l :: rest) :
    ∃ w'', w'.nextLine l rest = .ok w'' ∧ Going src c ls w'' ∧ Live c w'' := by
  obtain ⟨h1, -, -, -⟩ := hw
  obtain ⟨w'', h2, h3, -⟩ := (nextLine_ok h.ok h1 ha).exists_ok
  exact ⟨w'', h2, ⟨h.ok, h.src_eq, .inl h3, h.cpl, h.lines⟩, h3⟩

theorem next_starved {w w' : IP} (hal : Alive c w) (hw : EvOut c w (w', .next)) (ha : w'.input.ahead = []) : Starved c w' := by
  obtain ⟨h1, h2, h3, -⟩ := hw
  refine ⟨h1.live, h1.stop, ha, ?_⟩
  simp only at h3
  rw [← hal.inp.cpl]
  unfold Input.last at h2
  rw [← h3, ha] at h2
  simpa using h2

theorem Going.feed {l : Span} {ls : List Span} {w w' : IP} {f : Flow} (h : Going src c (l :: ls) w) (hw : EvOut c w (w', f)) (hf : f = .more ∨ f = .next ∧ w'.input.ahead = []) :
    ∃ w'' c', w'.feedLine l ls.isEmpty = .ok w'' ∧ Going src c' ls w'' := by
  have hl := h.lines
  have hs := h.src_eq
  cases hl with
  | @cons _ _ more' _ _ a1 a2 a3 a4 a5 =>
    have hcl : (c.line l ls.isEmpty more').Ok := ⟨h.ok.safe, h.ok.bd, by rw [← hs] at a1; exact a1.len⟩
    rcases hf with rfl | ⟨rfl, ha⟩
    · have hp : Pending c w' := hw
      obtain ⟨w'', b1, b2⟩ := (hp.feed (last := ls.isEmpty) (more := more') (by rw [hs]; exact a1) a2 a3 (by rw [hs]; exact a4)).exists_ok
      exact ⟨w'', c.line l ls.isEmpty more', b1, hcl, hs, .inr b2, rfl, a5⟩
    · have hp := next_starved h.alive hw ha
      obtain ⟨w'', b1, b2⟩ := (hp.feed h.ok (last := ls.isEmpty) (more := more') (by rw [hs]; exact a1) a2 a3 (by rw [hs]; exact fun h => (a4 h).2)).exists_ok
      exact ⟨w'', c.line l ls.isEmpty more', b1, hcl, hs, .inl b2, rfl, a5⟩

theorem Going.full {w w' : IP} {f : Flow} (h : Going src c [] w) (hw : EvOut c w (w', f)) (hf : f = .more ∨ f = .next ∧ w'.input.ahead = []) : False := by
  have hc := h.cpl
  rcases hf with rfl | ⟨rfl, ha⟩
  · have hp : Pending c w' := hw
    rw [hp.cpl] at hc; cases hc
  · rw [(next_starved h.alive hw ha).cpl] at hc; cases hc

/-! ## Parsers with the same lines -/

theorem setCurrentLine_sim {i j i' j' : Input} {l : Span}
    (h1 : i.setCurrentLine l = .ok i') (h2 : j.setCurrentLine l = .ok j') (hs : j.src = i.src) (hc : j.complete = i.complete) (ha : j.ahead = i.ahead) : InpSim E .same i' j' ∧ i'.lexer.verbatim = false := by
  unfold Input.setCurrentLine at h1 h2
  rw [hs] at h2
  replace h1 := bind_ok h1
  replace h2 := bind_ok h2
  obtain ⟨s, h1, g1⟩ := h1
  obtain ⟨s', h2, g2⟩ := h2
  rw [h1] at h2
  cases h2; cases g1; cases g2
  exact ⟨⟨rfl, rfl, .refl _, hc, ha, rfl⟩, rfl⟩

theorem nextLine_sim {p q p' q' : IP} {l : Span} {rest : List Span} (h : Sim D E .same p q) (h1 : p.nextLine l rest = .ok p') (h2 : q.nextLine l rest = .ok q') :
    Sim D E .same p' q' := by
  unfold IP.nextLine at h1 h2
  replace h1 := bind_ok h1
  replace h2 := bind_ok h2
  obtain ⟨s, h1, g1⟩ := h1
  obtain ⟨s', h2, g2⟩ := h2
  cases g1; cases g2
  have := setCurrentLine_sim (E := E) h1 h2 h.inp.src h.inp.lines.1 rfl
  exact h.input this.1 (fun _ => this.2)

theorem feedLine_sim {p q p' q' : IP} {l : Span} {b : Bool} (h : Sim D E .same p q) (h1 : p.feedLine l b = .ok p') (h2 : q.feedLine l b = .ok q') :
    Sim D E .same p' q' := by
  unfold IP.feedLine Input.feedLine at h1 h2
  replace h1 := bind_ok h1
  replace h2 := bind_ok h2
  obtain ⟨s, h1, g1⟩ := h1
  obtain ⟨s', h2, g2⟩ := h2
  cases g1; cases g2
  replace h1 := bind_ok h1
  replace h2 := bind_ok h2
  obtain ⟨_, _, h1⟩ := h1
  obtain ⟨_, _, h2⟩ := h2
  replace h1 := bind_ok h1
  replace h2 := bind_ok h2
  obtain ⟨a, ha, h1⟩ := h1
  obtain ⟨a', ha', h2⟩ := h2
  have := h.inp.lex.ahead ha ha'
  subst this
  have hl := h.inp.lines.2
  split at h1
  · rename_i hx
    simp only [hx, if_true] at h2
    rw [hl.1] at h2
    cases hah : p.input.ahead with
    | nil =>
      rw [hah] at h1 h2
      simp only at h1 h2
      have := setCurrentLine_sim (E := E) h1 h2 h.inp.src rfl rfl
      exact h.input this.1 (fun _ => this.2)
    | cons n r =>
      rw [hah] at h1 h2
      simp only at h1 h2
      replace h1 := bind_ok h1
      replace h2 := bind_ok h2
      obtain ⟨i, h1, g1⟩ := h1
      obtain ⟨i', h2, g2⟩ := h2
      have := setCurrentLine_sim (E := E) h1 h2 h.inp.src rfl rfl
      cases g1; cases g2
      obtain ⟨⟨k1, k2, k3, k4, k5, k6⟩, k7⟩ := this
      exact h.input ⟨k1, k2, k3, k4, by simp only [k5], k6⟩ (fun _ => k7)
  · rename_i hx
    simp only [hx] at h2
    cases h1; cases h2
    exact h.input ⟨h.inp.src, h.inp.span, h.inp.lex, rfl, by simp only [hl.1], hl.2⟩ h.vf

theorem autoClose_evs {p q p' q' : IP} (hvb : q.verbatim = p.verbatim.map (·.shift D.length)) (hev : q.events = D ++ p.events) (hsp : q.input.span = p.input.span)
    (h1 : p.autoClose = .ok p') (h2 : q.autoClose = .ok q') : q'.events = D ++ p'.events := by
  unfold IP.autoClose at h1 h2
  rw [hvb] at h2
  cases hv : p.verbatim with
  | none =>
    rw [hv] at h1 h2
    cases h1; cases h2
    exact hev
  | some v =>
    rw [hv] at h1 h2
    simp only [Option.map_some] at h1 h2
    replace h1 := bind_ok h1
    replace h2 := bind_ok h2
    obtain ⟨t, a1, h1⟩ := h1
    obtain ⟨t', a2, h2⟩ := h2
    have a2 : enterAt q.events (v.eventOpener + D.length) = .ok t' := a2
    rw [hev, enterAt_app, a1] at a2
    cases a2
    replace h1 := bind_ok h1
    replace h2 := bind_ok h2
    obtain ⟨_, _, h1⟩ := h1
    obtain ⟨_, _, h2⟩ := h2
    cases h1; cases h2
    simp only
    rw [hev, hsp, List.append_assoc]

theorem autoClose_sim {p q p' q' : IP} (h : Sim D E m p q) (h1 : p.autoClose = .ok p') (h2 : q.autoClose = .ok q') : q'.events = D ++ p'.events :=
  autoClose_evs h.verbatim h.events h.inp.span h1 h2

/-- Complete events do not end in attributes. -/
theorem Bal.last {N : Notes} {lo hi : Nat} {es : List Event} (h : Bal N lo es hi) : ∀ e, es.getLast? = some e → ∀ b i, e.kind ≠ .attributes b i := by
  have key : ∀ {es : List Event} {x : Event}, (∀ b i, x.kind ≠ .attributes b i) → (∀ e, es.getLast? = some e → ∀ b i, e.kind ≠ .attributes b i) →
      ∀ (pre : List Event) e, (pre ++ x :: es).getLast? = some e → ∀ b i, e.kind ≠ .attributes b i := by
    intro es x hx hes pre e he
    rw [List.getLast?_append] at he
    cases es with
    | nil => simp at he; subst he; exact hx
    | cons a b =>
      rw [List.getLast?_cons_cons] at he
      cases hl : (a :: b).getLast? with
      | none => simp at hl
      | some z => rw [hl] at he; simp at he; subst he; exact hes z hl
  induction h with
  | nil => intro e he; cases he
  | @leaf lo hi e es a _ _ ih =>
    refine key (x := e) ?_ ih []
    rcases a with a | ⟨a, _⟩ | ⟨_, a⟩ <;> (intro b i h; rw [a] at h; cases h)
  | @word lo hi a e es i h1 h2 _ _ _ _ ih => exact key (x := e) (fun b i h => by rw [h2] at h; cases h) ih [a]
  | @node lo hi o F x c es h1 h2 _ _ _ _ _ _ ih => exact key (x := x) (fun b i h => by rw [h2] at h; cases h) ih (o :: F)
  | @attr lo hi a o F x c es i own _ h1 h2 _ _ _ _ _ _ _ ih => exact key (x := x) (fun b i h => by rw [h2] at h; cases h) ih (a :: o :: F)

theorem Live.closed {w : IP} (h : Live c w) (hn : w.needMore = false) : Closed w.events := by
  obtain ⟨-, -, h3, -, h5⟩ := needMore_false hn
  have hq := h.queue
  rw [h3] at hq
  intro e he
  refine ⟨?_, (h.last e he).1, fun b i => (Lay.bal hq).last e he b i⟩
  unfold NoStr at h5
  rw [he] at h5
  simpa using h5

theorem step_same (hD : Closed D) {ls : List Span} {p w : IP} {r : IP × Flow} (h : Sim D E .same p w) (hw : Going src c ls w) (h1 : p.parseEvent = .ok r) :
    ∃ w', w.parseEvent = .ok (w', r.2) ∧ EvOut c w (w', r.2) ∧ Sim D E .same r.1 w' := by
  obtain ⟨⟨w', f⟩, h2, h3⟩ := hw.event
  have := step_sim hD hw.ok h hw.alive (fun h => by cases h) h1 h2
  cases this with
  | same a b =>
    simp only at a
    subst a
    exact ⟨w', h2, h3, b⟩
  | ends _ _ _ _ a => exact absurd rfl a
  | later a => cases a

/-- The same events are emitted in the end. -/
theorem Eager.lazy {ls : List Span} {p : IP} {es : List Event} (he : Eager ls p es) : ∀ {D : List Event} {c : Cx} {w : IP}, Sim D 0 .same p w → Closed D → Going src c ls w →
    ∃ n f X, Lazy n ls w f ∧ f.events = D ++ X ∧ Emits src X es := by
  induction he with
  | cont _ h1 _ ih =>
    intro D c w h hD hw
    obtain ⟨w', a1, a2, a3⟩ := step_same hD h hw h1
    obtain ⟨n, f, X, b1, b2, b3⟩ := ih a3 hD (hw.cont a2)
    exact ⟨n + 1, f, X, ⟨_, a1, b1⟩, b2, b3⟩
  | next _ h1 ha h2 _ ih =>
    intro D c w h hD hw
    obtain ⟨w', a1, a2, a3⟩ := step_same hD h hw h1
    have ha' := ha
    rw [← a3.inp.lines.2.1] at ha'
    obtain ⟨w'', b1, b2, -⟩ := hw.next a2 ha'
    obtain ⟨n, f, X, c1, c2, c3⟩ := ih (nextLine_sim a3 h2 b1) hD b2
    exact ⟨n + 1, f, X, ⟨_, a1, .inl ⟨_, _, _, ha', b1, c1⟩⟩, c2, c3⟩
  | feed _ h1 hf h2 _ ih =>
    intro D c w h hD hw
    obtain ⟨w', a1, a2, a3⟩ := step_same hD h hw h1
    have hf' := hf
    rw [← a3.inp.lines.2.1] at hf'
    obtain ⟨w'', c', b1, b2⟩ := hw.feed a2 hf'
    obtain ⟨n, f, X, c1, c2, c3⟩ := ih (feedLine_sim a3 h2 b1) hD b2
    refine ⟨n + 1, f, X, ⟨_, a1, ?_⟩, c2, c3⟩
    rcases hf' with rfl | ⟨rfl, hx⟩
    · exact ⟨_, _, _, rfl, b1, c1⟩
    · exact .inr ⟨hx, _, _, _, rfl, b1, c1⟩
  | stop _ h1 hf =>
    intro D c w h hD hw
    obtain ⟨w', a1, a2, a3⟩ := step_same hD h hw h1
    rw [← a3.inp.lines.2.1] at hf
    exact (hw.full a2 hf).elim
  | done _ h1 h2 h3 =>
    intro D c w h hD hw
    obtain ⟨w', a1, a2, a3⟩ := step_same hD h hw h1
    obtain ⟨b1, b2, b3⟩ := a2
    have hfin : Final c w' := ⟨b1.live, b1.stop, ?_, b1.empty⟩
    · obtain ⟨f, c1, c2⟩ := (hfin.emit hw.ok).exists_ok
      refine ⟨1, f, _, ⟨_, a1, rfl, c1⟩, autoClose_sim a3 h2 c1, ?_⟩
      rw [← hw.src_eq, ← hw.alive.inp.src, h.inp.src]
      exact h3
    · exact (done_state a1).1
  | @flush ls p es es' hn h1 _ ih =>
    intro D c w h hD hw
    obtain ⟨n1, n2, n3, n4, n5⟩ := needMore_false hn
    have hop : w.openers = [] := by rw [h.openers, n2]; rfl
    have hvb : w.verbatim = none := by rw [h.verbatim, n3]; rfl
    have hat : w.attributes = none := by rw [h.attributes, n4]; rfl
    have hns : NoStr w.events := by
      rw [h.events]
      unfold NoStr
      rw [hD.str]
      exact n5
    have hwn : w.needMore = false := by
      refine needMore_of (p := { w with events := p.events }) ?_ ?_ hns
      · unfold IP.needMore at hn ⊢
        simp only [n2, n3, n4] at hn
        simp only [hop, hvb, hat]
        exact hn
      · rw [h.events]; simp [n1]
    have hl : Live c w := by
      rcases hw.alive with hl | hf
      · exact hl
      · obtain ⟨st, _, hwt, _⟩ := hf.wait
        have := hwt.attr
        rw [hat] at this
        cases this
    have hc1 : Closed (D ++ p.events) := by rw [← h.events]; exact hl.closed hwn
    have hc2 : Closed p.events := by
      intro e he
      exact hc1 e (by rw [getLast_app, he]; rfl)
    have hs : Sim (D ++ p.events) 0 .same { p with events := [] } w :=
      ⟨h.inp, by rw [hop]; simp only [n2]; rfl, by rw [h.events]; simp, by rw [hvb]; simp only [n3]; rfl, by rw [hat]; simp only [n4]; rfl, h.cow, h.attrs, h.vf⟩
    obtain ⟨n, f, X, c1, c2, c3⟩ := ih hs hc1 hw
    refine ⟨n, f, p.events ++ X, c1, by rw [c2, List.append_assoc], .append hc2 ?_ c3⟩
    rw [← hw.src_eq, ← hw.alive.inp.src, h.inp.src]
    exact h1

end Jotdown.Inline
