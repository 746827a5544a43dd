import Verif.Model.Main
import Verif.Props.Writer
import Verif.Props.Parser
import Verif.Props.RenderTotal
/-! # Property C55: the command line program -/
namespace Jotdown.Main
open Jotdown Jotdown.Notation

theorem file_wuf {σ ε : Type} (d : Device σ ε) (o : List Bytes) (s f : Dest σ) (er : Option ε) (h : Html.WritesUntilFailure d.file s o f er) :
    f.got <+: s.got ++ o.flatten ∧ (er = none → f.got = s.got ++ o.flatten) := by
  induction o generalizing s with
  | nil => obtain ⟨rfl, rfl⟩ := h; simp
  | cons b bs ih =>
    unfold Html.WritesUntilFailure at h
    simp only [Device.file, Device.writeAll] at h
    by_cases hb : b = []
    · subst hb
      simp only [if_true] at h
      simpa using ih s h
    · simp only [hb, if_false] at h
      cases hp : d.put s.dev b with
      | mk dev x =>
        cases x with
        | none =>
          simp only [hp] at h
          simpa [List.append_assoc] using ih ⟨dev, s.got ++ b⟩ h
        | some ne =>
          simp only [hp] at h
          obtain ⟨rfl, rfl⟩ := h
          refine ⟨?_, fun h => by cases h⟩
          rw [List.flatten_cons]
          exact (List.prefix_append_right_inj _).2 ((List.take_prefix _ _).trans (List.prefix_append _ _))

theorem flush_keeps {σ ε : Type} (d : Device σ ε) (w : BufWriter σ) : (w.flushBuf d).1.inner.got ++ (w.flushBuf d).1.buf = w.inner.got ++ w.buf ∧
    (w.flushBuf d).1.buf.length ≤ w.buf.length ∧ ((w.flushBuf d).2 = none → (w.flushBuf d).1.buf = []) := by
  unfold BufWriter.flushBuf Device.writeAll
  by_cases hb : w.buf = []
  · simp [hb]
  · simp only [hb, if_false]
    cases hp : d.put w.inner.dev w.buf with
    | mk dev x => cases x <;> simp

/-- The buffered writer has taken `x` and lost nothing of it. -/
def Holds {σ : Type} (w : BufWriter σ) (x : Bytes) : Prop := w.inner.got ++ w.buf = x ∧ w.buf.length ≤ capacity

theorem cold_holds {σ ε : Type} (d : Device σ ε) (w : BufWriter σ) (b x : Bytes) (h : Holds w x) (hb : w.buf = [] ∨ w.buf.length + b.length ≤ capacity) :
    (∃ w', w.writeCold d b = .ok w' ∧ Holds w' (x ++ b)) ∨ (∃ w' e y, w.writeCold d b = .error (w', e) ∧ Holds w' y ∧ y <+: x ++ b) := by
  obtain ⟨rfl, hl⟩ := h
  unfold BufWriter.writeCold
  by_cases hc : capacity ≤ b.length
  · have he : w.buf = [] := by
      rcases hb with hb | hb
      · exact hb
      · exact List.length_eq_zero_iff.1 (by omega)
    have hb' : b ≠ [] := by rintro rfl; simp [capacity] at hc
    simp only [hc, if_true, Device.writeAll, hb', if_false]
    cases hp : d.put w.inner.dev b with
    | mk dev y =>
      cases y with
      | none => exact .inl ⟨_, rfl, by simp [he], by simp [he, capacity]⟩
      | some ne =>
        refine .inr ⟨_, _, _, rfl, ⟨rfl, by simp [he, capacity]⟩, ?_⟩
        simp only [he, List.append_nil]
        exact (List.prefix_append_right_inj _).2 (List.take_prefix _ _)
  · simp only [hc, if_false]
    refine .inl ⟨_, rfl, by simp, ?_⟩
    simp only [List.length_append]
    rcases hb with hb | hb
    · simp only [hb, List.length_nil]; omega
    · exact hb

theorem buffered_holds {σ ε : Type} (d : Device σ ε) (w : BufWriter σ) (b x : Bytes) (h : Holds w x) :
    (∃ w', d.buffered.write w b = .ok w' ∧ Holds w' (x ++ b)) ∨ (∃ w' e y, d.buffered.write w b = .error (w', e) ∧ Holds w' y ∧ y <+: x ++ b) := by
  simp only [Device.buffered]
  by_cases h1 : b.length < capacity - w.buf.length
  · simp only [h1, if_true]
    obtain ⟨rfl, hl⟩ := h
    refine .inl ⟨_, rfl, by simp, ?_⟩
    simp only [List.length_append]; omega
  · simp only [h1, if_false]
    by_cases h2 : capacity - w.buf.length < b.length
    · simp only [h2, if_true]
      obtain ⟨k1, k2, k3⟩ := flush_keeps d w
      obtain ⟨rfl, hl⟩ := h
      cases hf : w.flushBuf d with
      | mk w' e =>
        rw [hf] at k1 k2 k3
        have hw : Holds w' (w.inner.got ++ w.buf) := ⟨k1, Nat.le_trans k2 hl⟩
        cases e with
        | none => exact cold_holds d w' b _ hw (.inl (k3 rfl))
        | some e => exact .inr ⟨_, _, _, rfl, hw, List.prefix_append _ _⟩
    · simp only [h2, if_false]
      exact cold_holds d w b x h (.inr (by have := h.2; omega))

theorem buffered_wuf {σ ε : Type} (d : Device σ ε) (o : List Bytes) (s f : BufWriter σ) (er : Option ε) (x : Bytes) (hs : Holds s x)
    (h : Html.WritesUntilFailure d.buffered s o f er) : ∃ y, Holds f y ∧ y <+: x ++ o.flatten ∧ (er = none → y = x ++ o.flatten) := by
  induction o generalizing s x with
  | nil => obtain ⟨rfl, rfl⟩ := h; exact ⟨x, hs, by simp, by simp⟩
  | cons b bs ih =>
    unfold Html.WritesUntilFailure at h
    rcases buffered_holds d s b x hs with ⟨w', hw, hh⟩ | ⟨w', e, y, hw, hh, hp⟩
    · rw [hw] at h
      obtain ⟨y, h1, h2, h3⟩ := ih w' (x ++ b) hh h
      exact ⟨y, h1, by simpa using h2, by simpa using h3⟩
    · rw [hw] at h
      obtain ⟨rfl, rfl⟩ := h
      refine ⟨y, hh, ?_, fun h => by cases h⟩
      rw [List.flatten_cons, ← List.append_assoc]
      exact hp.trans (List.prefix_append _ _)

/-- A device that never fails. -/
def Reliable {σ ε : Type} (d : Device σ ε) : Prop := ∀ s b, (d.put s b).2 = none

theorem reliable_file {σ ε : Type} (d : Device σ ε) (hd : Reliable d) (o : List Bytes) (s f : Dest σ) (er : Option ε) (h : Html.WritesUntilFailure d.file s o f er) : er = none := by
  induction o generalizing s with
  | nil => exact h.2
  | cons b bs ih =>
    unfold Html.WritesUntilFailure at h
    simp only [Device.file, Device.writeAll] at h
    by_cases hb : b = []
    · subst hb
      simp only [if_true] at h
      exact ih s h
    · simp only [hb, if_false] at h
      have := hd s.dev b
      cases hp : d.put s.dev b with
      | mk dev x =>
        rw [hp] at this
        subst this
        simp only [hp] at h
        exact ih _ h

theorem reliable_flush {σ ε : Type} (d : Device σ ε) (hd : Reliable d) (w : BufWriter σ) : (w.flushBuf d).2 = none := by
  unfold BufWriter.flushBuf Device.writeAll
  by_cases hb : w.buf = []
  · simp [hb]
  · simp only [hb, if_false]
    have := hd w.inner.dev w.buf
    cases hp : d.put w.inner.dev w.buf with
    | mk dev x => rw [hp] at this; subst this; rfl

theorem reliable_cold {σ ε : Type} (d : Device σ ε) (hd : Reliable d) (w : BufWriter σ) (b : Bytes) : ∃ w', w.writeCold d b = .ok w' := by
  unfold BufWriter.writeCold Device.writeAll
  by_cases hc : capacity ≤ b.length
  · by_cases hb : b = []
    · simp only [hc, if_true, hb]; exact ⟨_, rfl⟩
    · simp only [hc, if_true, hb, if_false]
      have := hd w.inner.dev b
      cases hp : d.put w.inner.dev b with
      | mk dev x => rw [hp] at this; subst this; exact ⟨_, rfl⟩
  · simp only [hc, if_false]; exact ⟨_, rfl⟩

theorem reliable_buffered {σ ε : Type} (d : Device σ ε) (hd : Reliable d) (o : List Bytes) (s f : BufWriter σ) (er : Option ε) (h : Html.WritesUntilFailure d.buffered s o f er) :
    er = none := by
  induction o generalizing s with
  | nil => exact h.2
  | cons b bs ih =>
    unfold Html.WritesUntilFailure at h
    have : ∃ w', d.buffered.write s b = .ok w' := by
      simp only [Device.buffered]
      by_cases h1 : b.length < capacity - s.buf.length
      · simp only [h1, if_true]; exact ⟨_, rfl⟩
      · simp only [h1, if_false]
        by_cases h2 : capacity - s.buf.length < b.length
        · simp only [h2, if_true]
          have := reliable_flush d hd s
          cases hf : s.flushBuf d with
          | mk w' e => rw [hf] at this; subst this; exact reliable_cold d hd w' b
        · simp only [h2, if_false]; exact reliable_cold d hd s b
    obtain ⟨w', hw⟩ := this
    rw [hw] at h
    exact ih w' h

/-! ## The program -/

/-- What the program is to print: the rendering of the input with the options given, by the library. -/
def App.rendering (a : App) (src : Bytes) : R Bytes := do
  let es ← events src
  (if a.minified then Html.Renderer.minified else Html.Renderer.indented ⟨a.indentString, a.startIndent⟩).output es

theorem rendering_ok {a : App} {src html : Bytes} (h : a.rendering src = .ok html) :
    ∃ es r o, events src = .ok es ∧ a.renderer.pushEvents es = .ok (r, o) ∧ o.flatten = html := by
  unfold App.rendering at h
  obtain ⟨es, h1, h⟩ := bind_ok h
  unfold Html.Renderer.output at h
  obtain ⟨⟨r, o⟩, h2, h⟩ := bind_ok h
  simp only [pure, Except.pure, Except.ok.injEq] at h
  exact ⟨es, r, o, h1, h2, h⟩

theorem status_zero {ε : Type} {x : Option ε} : status x = 0 ↔ x = none := by
  cases x <;> simp [status]

/-- **C55**, output file: the program ends without a panic; the file holds a prefix of the rendering of the input, nothing goes to
standard output; the exit status is 0 only if the file holds all of it, and is 0 if the file takes everything. -/
theorem C55_file {σ ε : Type} (d : Device σ ε) (env : Env σ ε) (a : App) (ha : a.output = true) (src html : Bytes) (hi : env.input = .ok src) (f : σ)
    (hc : env.create = .ok f) (hr : a.rendering src = .ok html) :
    ∃ st got, a.run d env = .ok ⟨st, some got, []⟩ ∧ got <+: html ∧ (st = 0 → got = html) ∧ (Reliable d → st = 0) := by
  obtain ⟨es, r, o, h1, h2, rfl⟩ := rendering_ok hr
  obtain ⟨fin, err, h3, h4⟩ := Html.C18_write_reports_own_error d.file es _ _ _ ⟨f, []⟩ h2
  obtain ⟨k1, k2⟩ := file_wuf d o _ _ _ h4
  refine ⟨status (err.map Html.IoError.own), fin.got, ?_, by simpa using k1, ?_, ?_⟩
  · unfold App.run
    simp only [hi, h1, hc, ha, if_true, bind, Except.bind, h3, pure, Except.pure]
  · intro h
    rw [status_zero, Option.map_eq_none_iff] at h
    simpa using k2 h
  · intro hd
    rw [reliable_file d hd _ _ _ _ h4]
    rfl

/-- **C55**, standard output: it is given a prefix of the rendering of the input, and all of it with exit status 0 if it takes everything.
Missing for the full claim: with exit status 0 up to 8192 bytes at the end may be missing (`C55_lost_output`). -/
theorem C55_stdout_partial {σ ε : Type} (d : Device σ ε) (env : Env σ ε) (a : App) (ha : a.output = false) (src html : Bytes) (hi : env.input = .ok src)
    (hr : a.rendering src = .ok html) :
    ∃ st got, a.run d env = .ok ⟨st, none, got⟩ ∧ got <+: html ∧ (st = 0 → html.length ≤ got.length + 8192) ∧ (Reliable d → st = 0 ∧ got = html) := by
  obtain ⟨es, r, o, h1, h2, rfl⟩ := rendering_ok hr
  obtain ⟨fin, err, h3, h4⟩ := Html.C18_write_reports_own_error d.buffered es _ _ _ ⟨⟨env.stdout, []⟩, []⟩ h2
  obtain ⟨y, ⟨rfl, hl⟩, k1, k2⟩ := buffered_wuf d o _ _ _ [] ⟨rfl, by simp⟩ h4
  simp only [List.nil_append] at k1 k2
  obtain ⟨f1, f2, f3⟩ := flush_keeps d fin
  refine ⟨status (err.map Html.IoError.own), (fin.flushBuf d).1.inner.got, ?_, ?_, ?_, ?_⟩
  · unfold App.run
    simp only [hi, h1, ha, bind, Except.bind, h3, pure, Except.pure, Bool.false_eq_true, if_false]
  · refine List.IsPrefix.trans ?_ k1
    rw [← f1]
    exact List.prefix_append _ _
  · intro h
    rw [status_zero, Option.map_eq_none_iff] at h
    rw [← k2 h, ← f1, List.length_append]
    have : capacity = 8192 := rfl
    omega
  · intro hd
    have he := reliable_buffered d hd _ _ _ _ h4
    refine ⟨by rw [he]; rfl, ?_⟩
    rw [← k2 he, ← f1, f3 (reliable_flush d hd fin), List.append_nil]

/-- **C55**: an input that cannot be read, or is not UTF-8, or an output file that cannot be created: exit status 1 and nothing is written. -/
theorem C55_unreadable {σ ε : Type} (d : Device σ ε) (env : Env σ ε) (a : App) (e : ε) (hi : env.input = .error e) : a.run d env = .ok ⟨1, none, []⟩ := by
  unfold App.run
  simp only [hi]

theorem C55_not_created {σ ε : Type} (d : Device σ ε) (env : Env σ ε) (a : App) (ha : a.output = true) (src html : Bytes) (hi : env.input = .ok src)
    (hr : a.rendering src = .ok html) (e : ε) (hc : env.create = .error e) : a.run d env = .ok ⟨1, none, []⟩ := by
  obtain ⟨es, r, o, h1, -, -⟩ := rendering_ok hr
  unfold App.run
  simp only [hi, h1, hc, ha, if_true, bind, Except.bind]

/-- The rendering exists for every input below 16 KiB. -/
theorem rendering_exists (a : App) (src : Bytes) (hu : Utf8 src) (hlen : src.length < 16383) : ∃ html, a.rendering src = .ok html := by
  have key : ∀ i, ∃ html, (do let es ← events src; (Html.Renderer.new i).output es) = .ok html := by
    intro i
    obtain ⟨es, out, h1, h2⟩ := Html.C56_short src hu hlen i
    exact ⟨out, by rw [h1]; exact h2⟩
  unfold App.rendering
  cases a.minified
  · exact key (some ⟨a.indentString, a.startIndent⟩)
  · exact key none

/-- **C55**, **C56**: for every input below 16 KiB, whatever the options and the device do, the program does not panic; it ends with an exit status. -/
theorem C55_no_panic {σ ε : Type} (d : Device σ ε) (env : Env σ ε) (a : App) (hs : ∀ src, env.input = .ok src → Utf8 src ∧ src.length < 16383) :
    ∃ st f got, a.run d env = .ok ⟨st, f, got⟩ := by
  cases hi : env.input with
  | error e => exact ⟨_, _, _, C55_unreadable d env a e hi⟩
  | ok src =>
    obtain ⟨hu, hl⟩ := hs src hi
    obtain ⟨html, hr⟩ := rendering_exists a src hu hl
    cases ha : a.output
    · obtain ⟨st, got, h, -⟩ := C55_stdout_partial d env a ha src html hi hr
      exact ⟨st, none, got, h⟩
    · cases hc : env.create with
      | error e => exact ⟨_, _, _, C55_not_created d env a ha src html hi hr e hc⟩
      | ok f =>
        obtain ⟨st, got, h, -⟩ := C55_file d env a ha src html hi f hc hr
        exact ⟨st, some got, [], h⟩

/-- A full device: takes nothing. -/
def full : Device Unit Unit := ⟨fun s _ => (s, some (0, ()))⟩

/-- A device with room for some bytes. -/
def disk : Device Nat Unit := ⟨fun n b => if b.length ≤ n then (n - b.length, none) else (0, some (n, ()))⟩

/-- The full claim of C55 is false for standard output: if it takes nothing (a full disk) the program still ends with exit status 0, and all
of the output is lost. With an output file the exit status is 1. -/
theorem C55_lost_output :
    (⟨false, true, 0, []⟩ : App).rendering (b! "a\n") = .ok (b! "<p>a</p>") ∧
    App.run full ⟨.ok (b! "a\n"), .ok (), ()⟩ ⟨false, true, 0, []⟩ = .ok ⟨0, none, []⟩ ∧
    App.run full ⟨.ok (b! "a\n"), .ok (), ()⟩ ⟨true, true, 0, []⟩ = .ok ⟨1, some [], []⟩ := by
  decide +kernel

/-- The hypotheses of the theorems are met, also by devices that fail part of the way. -/
example : App.run disk ⟨.ok (b! "# a\n\n- b\n"), .ok 20, 20⟩ ⟨true, false, 1, b! "  "⟩ = .ok ⟨1, some (b! "  <section id=\"a\">\n "), []⟩ ∧
    App.run disk ⟨.ok (b! "# a\n"), .ok 20, 20⟩ ⟨false, false, 1, b! "  "⟩ = .ok ⟨0, none, b! "  <section id=\"a\">\n "⟩ ∧
    App.run disk ⟨.ok (b! "# a\n"), .ok 90, 90⟩ ⟨false, true, 0, []⟩ = .ok ⟨0, none, b! "<section id=\"a\"><h1>a</h1></section>"⟩ := by
  decide +kernel

end Jotdown.Main
