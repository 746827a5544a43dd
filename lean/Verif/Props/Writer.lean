import Verif.Model.Html
import Verif.Proofs.Base
/-! # Properties C17, C18: incremental rendering and failing writers -/
namespace Jotdown.Html
open Jotdown

/-- Rendering a stream in batches, one `push_events` call per batch. A batch of one event is the same
as a `push_event` call (`pushEvents_single`). -/
def Renderer.pushBatches (r : Renderer) : List (List Event) → R (Renderer × Out)
  | [] => .ok (r, [])
  | b :: bs => do
    let (r, o1) ← r.pushEvents b
    let (r, o2) ← r.pushBatches bs
    pure (r, o1 ++ o2)

theorem pushEvents_single (r : Renderer) (e : Event) : r.pushEvents [e] = r.pushEvent e := by
  simp only [Renderer.pushEvents, bind, Except.bind, pure, Except.pure]
  cases r.pushEvent e with
  | error => rfl
  | ok x => simp

theorem pushEvents_append (r : Renderer) (a b : List Event) :
    r.pushEvents (a ++ b) = (do
      let (r, o1) ← r.pushEvents a
      let (r, o2) ← r.pushEvents b
      pure (r, o1 ++ o2)) := by
  induction a generalizing r with
  | nil =>
    simp only [List.nil_append, Renderer.pushEvents, bind, Except.bind, pure, Except.pure]
    cases r.pushEvents b with
    | error => rfl
    | ok x => simp
  | cons e a ih =>
    simp only [List.cons_append, Renderer.pushEvents, bind, Except.bind, pure, Except.pure] at *
    cases r.pushEvent e with
    | error => rfl
    | ok x =>
      simp only [ih]
      cases x.1.pushEvents a with
      | error => rfl
      | ok y =>
        simp only
        cases y.1.pushEvents b with
        | error => rfl
        | ok z => simp

/-- **C17.** Rendering a stream in any batches, down to single events, makes the same writes and
leaves the renderer in the same state as rendering it at once (and panics iff that does). -/
theorem C17_incremental (r : Renderer) (batches : List (List Event)) :
    r.pushBatches batches = r.pushEvents batches.flatten := by
  induction batches generalizing r with
  | nil => rfl
  | cons b bs ih =>
    simp only [Renderer.pushBatches, List.flatten_cons, pushEvents_append, bind, Except.bind, pure, Except.pure]
    cases r.pushEvents b with
    | error => rfl
    | ok x => simp only [ih]

/-! ## Failing writers -/

/-- What a writer `w` in state `s` experiences when `calls` are made one after the other until it
fails: `done` have succeeded, leaving it in state `s'`, and if some call is not among them, the first
such call failed with `err`, leaving the final state. -/
def WritesUntilFailure {σ ε : Type} (w : Sink σ ε) (s : σ) (calls : List Bytes) (final : σ)
    (err : Option ε) : Prop :=
  match calls with
  | [] => final = s ∧ err = none
  | b :: bs =>
    match w.write s b with
    | .ok s' => WritesUntilFailure w s' bs final err
    | .error (s', e) => final = s' ∧ err = some e

theorem writeAll_spec {σ ε : Type} (w : Sink σ ε) (s : σ) (o : Out) :
    WritesUntilFailure w s o (w.writeAll s o).1 (w.writeAll s o).2 := by
  induction o generalizing s with
  | nil => exact ⟨rfl, rfl⟩
  | cons b bs ih =>
    unfold WritesUntilFailure Sink.writeAll
    cases h : w.write s b with
    | ok s' => exact ih s'
    | error x => exact ⟨rfl, rfl⟩

theorem wuf_append {σ ε : Type} (w : Sink σ ε) (s s' f : σ) (a b : Out) (e : Option ε)
    (h1 : WritesUntilFailure w s a s' none) (h2 : WritesUntilFailure w s' b f e) :
    WritesUntilFailure w s (a ++ b) f e := by
  induction a generalizing s with
  | nil => obtain ⟨rfl, _⟩ := h1; exact h2
  | cons x xs ih =>
    unfold WritesUntilFailure at h1
    simp only [List.cons_append]
    unfold WritesUntilFailure
    cases h : w.write s x with
    | ok s'' => rw [h] at h1; exact ih s'' h1
    | error y => rw [h] at h1; obtain ⟨_, h1⟩ := h1; simp at h1

theorem wuf_append_fail {σ ε : Type} (w : Sink σ ε) (s f : σ) (a b : Out) (e : ε)
    (h1 : WritesUntilFailure w s a f (some e)) : WritesUntilFailure w s (a ++ b) f (some e) := by
  induction a generalizing s with
  | nil => obtain ⟨_, h⟩ := h1; simp at h
  | cons x xs ih =>
    unfold WritesUntilFailure at h1
    simp only [List.cons_append]
    unfold WritesUntilFailure
    cases h : w.write s x with
    | ok s'' => rw [h] at h1; exact ih s'' h1
    | error y => rw [h] at h1; exact h1

/-- **C18**, text writers: rendering into a writer that may fail makes exactly the write calls of
rendering into an unfailing writer, up to and including the first one that fails; then it returns an
error, and nothing more is written. If none fails the result is a success. -/
theorem C18_push_stops_at_failure {σ ε : Type} (w : Sink σ ε) (es : List Event) (r r' : Renderer)
    (o : Out) (s : σ) (h : r.pushEvents es = .ok (r', o)) :
    ∃ final err, r.pushEventsTo w s es = .ok (final, err) ∧ WritesUntilFailure w s o final err := by
  induction es generalizing r o s with
  | nil =>
    simp only [Renderer.pushEvents, Except.ok.injEq, Prod.mk.injEq] at h
    obtain ⟨_, rfl⟩ := h
    exact ⟨s, none, rfl, rfl, rfl⟩
  | cons e es ih =>
    unfold Renderer.pushEvents at h
    obtain ⟨⟨r1, o1⟩, h1, h⟩ := bind_ok h
    obtain ⟨⟨r2, o2⟩, h2, h⟩ := bind_ok h
    simp only [pure, Except.pure, Except.ok.injEq, Prod.mk.injEq] at h
    obtain ⟨rfl, rfl⟩ := h
    have hw := writeAll_spec w s o1
    unfold Renderer.pushEventsTo
    simp only [h1, bind, Except.bind]
    generalize w.writeAll s o1 = x at *
    obtain ⟨s1, e1⟩ := x
    cases e1 with
    | none =>
      obtain ⟨f, er, h3, h4⟩ := ih r1 o2 s1 h2
      exact ⟨f, er, h3, wuf_append w s s1 f o1 o2 er hw h4⟩
    | some er => exact ⟨s1, some er, rfl, wuf_append_fail w s s1 o1 o2 er hw⟩

theorem adapter_writeAll {σ ε : Type} (w : Sink σ ε) (s : σ) (o : Out) (x : Option ε) :
    w.adapter.writeAll (s, x) o =
      match w.writeAll s o with
      | (s', none) => ((s', x), none)
      | (s', some e) => ((s', some e), some ()) := by
  induction o generalizing s with
  | nil => rfl
  | cons b bs ih =>
    unfold Sink.writeAll
    simp only [Sink.adapter]
    cases h : w.write s b with
    | ok s' => exact ih s'
    | error y => rfl

/-- **C18**, byte writers: the same for `write_events`, and the error reported is the writer's own. -/
theorem C18_write_reports_own_error {σ ε : Type} (w : Sink σ ε) (es : List Event) (r r' : Renderer)
    (o : Out) (s : σ) (h : r.pushEvents es = .ok (r', o)) :
    ∃ final err, r.writeEvents w s es = .ok (final, err.map .own) ∧ WritesUntilFailure w s o final err := by
  induction es generalizing r o s with
  | nil =>
    simp only [Renderer.pushEvents, Except.ok.injEq, Prod.mk.injEq] at h
    obtain ⟨_, rfl⟩ := h
    exact ⟨s, none, rfl, rfl, rfl⟩
  | cons e es ih =>
    unfold Renderer.pushEvents at h
    obtain ⟨⟨r1, o1⟩, h1, h⟩ := bind_ok h
    obtain ⟨⟨r2, o2⟩, h2, h⟩ := bind_ok h
    simp only [pure, Except.pure, Except.ok.injEq, Prod.mk.injEq] at h
    obtain ⟨rfl, rfl⟩ := h
    have hw := writeAll_spec w s o1
    unfold Renderer.writeEvents
    simp only [h1, bind, Except.bind, adapter_writeAll]
    generalize w.writeAll s o1 = x at *
    obtain ⟨s1, e1⟩ := x
    cases e1 with
    | none =>
      obtain ⟨f, er, h3, h4⟩ := ih r1 o2 s1 h2
      exact ⟨f, er, h3, wuf_append w s s1 f o1 o2 er hw h4⟩
    | some er => exact ⟨s1, some er, rfl, wuf_append_fail w s s1 o1 o2 er hw⟩

/-- A writer that appends to a buffer but fails once the buffer would exceed `n` bytes. -/
def boundedSink (n : Nat) : Sink Bytes Nat where
  write s b := if (s ++ b).length ≤ n then .ok (s ++ b) else .error (s, n)

/-- **C18**, prefix: what a bounded buffer holds at the end is a prefix of the full output, and an
error is reported iff the output does not fit. -/
theorem C18_bounded_prefix (n : Nat) (es : List Event) (r r' : Renderer) (o : Out)
    (h : r.pushEvents es = .ok (r', o)) :
    ∃ out err, r.writeEvents (boundedSink n) [] es = .ok (out, err) ∧ out <+: o.flatten ∧
      (err = none → out = o.flatten) ∧ (err = none ↔ o.flatten.length ≤ n) := by
  obtain ⟨f, er, h1, h2⟩ := C18_write_reports_own_error (boundedSink n) es r r' o [] h
  have key : ∀ (o : Out) (s : Bytes), s.length ≤ n → WritesUntilFailure (boundedSink n) s o f er →
      f <+: s ++ o.flatten ∧ (er = none → f = s ++ o.flatten) ∧
      (er = none ↔ (s ++ o.flatten).length ≤ n) := by
    intro o
    induction o with
    | nil =>
      intro s hs hw
      obtain ⟨rfl, rfl⟩ := hw
      simp only [List.flatten_nil, List.append_nil]
      exact ⟨List.prefix_refl _, by simp, by simpa using hs⟩
    | cons b bs ih =>
      intro s hs hw
      unfold WritesUntilFailure at hw
      simp only [boundedSink] at hw
      split at hw
      · rename_i s' heq
        split at heq
        · rename_i hle
          simp at heq; subst heq
          have := ih (s ++ b) hle hw
          simpa using this
        · simp at heq
      · rename_i s' e heq
        split at heq
        · simp at heq
        · rename_i hgt
          simp at heq
          obtain ⟨rfl, rfl⟩ := heq
          obtain ⟨rfl, rfl⟩ := hw
          refine ⟨List.prefix_append _ _, by simp, ?_⟩
          simp at hgt ⊢
          omega
  have := key o [] (by simp) h2
  refine ⟨f, er.map .own, h1, by simpa using this.1, ?_, ?_⟩
  · intro he; cases er with
    | none => simpa using this.2.1 rfl
    | some e => simp at he
  · have h3 := this.2.2
    cases er with
    | none => simpa using h3
    | some e => simpa using h3

/- Concrete case: a paragraph rendered without panic, into a buffer that is too small. -/
example : ∃ r' o, Renderer.minified.pushEvents [.start .document [], .start .paragraph [], .str (b! "hi"),
    .end .paragraph, .end .document] = .ok (r', o) ∧ o.flatten = b! "<p>hi</p>" := by
  exact ⟨_, _, rfl, by decide +kernel⟩

end Jotdown.Html
