import Verif.Model.Html
import Verif.Spec.Html
import Verif.Proofs.Base
/-! # Property C11: escaping of text and attribute values -/
namespace Jotdown.Html
open Jotdown

/-- What is written for one byte. -/
def esc1 (quotes : Bool) (c : UInt8) : Bytes := (entity quotes c).getD [c]

theorem escapeLoop_flatten (quotes : Bool) (s acc : Bytes) :
    (escapeLoop quotes acc s).flatten = acc ++ s.flatMap (esc1 quotes) := by
  induction s generalizing acc with
  | nil => simp [escapeLoop]
  | cons c s ih =>
    unfold escapeLoop
    cases h : entity quotes c with
    | some e => simp [ih, esc1, h]
    | none => simp [ih, esc1, h]

theorem writeText_flatten (s : Bytes) : (writeText s).flatten = s.flatMap (esc1 false) := by
  simp [writeText, escapeLoop_flatten]

theorem writeAttr_flatten (s : Bytes) : (writeAttr s).flatten = s.flatMap (esc1 true) := by
  simp [writeAttr, escapeLoop_flatten]

theorem esc1_eq (q : Bool) (c : UInt8) : esc1 q c =
    if c = c! '<' then b! "&lt;" else if c = c! '>' then b! "&gt;" else if c = c! '&' then b! "&amp;"
    else if c = c! '"' ∧ q then b! "&quot;" else [c] := by
  unfold esc1 entity
  repeat' split
  all_goals rfl

theorem decode_other (c : UInt8) (s : Bytes) (h : c ≠ 38) : decode (c :: s) = c :: decode s := by
  rw [decode]
  all_goals intros; first | exact h ‹_› | (intro h'; injection h' with h' _; exact h h')

theorem decode_escape (q : Bool) (s : Bytes) : decode (s.flatMap (esc1 q)) = s := by
  induction s with
  | nil => simp [decode]
  | cons c s ih =>
    rw [List.flatMap_cons, esc1_eq]
    split
    · rename_i h; subst h; simp [decode, ih]
    · split
      · rename_i h; subst h; simp [decode, ih]
      · split
        · rename_i h; subst h; simp [decode, ih]
        · split
          · rename_i h; obtain ⟨rfl, _⟩ := h; simp [decode, ih]
          · rename_i h _
            rw [List.singleton_append, decode_other c _ (by assumption), ih]

theorem esc1_safe (q : Bool) (c : UInt8) : (∀ x ∈ esc1 q c, x ≠ c! '<' ∧ x ≠ c! '>' ∧ (q = true → x ≠ c! '"')) := by
  rw [esc1_eq]
  cases q <;> (revert c; apply ofFin; decide +kernel)

/-- **C11**, text: what is written for a text contains no `<` or `>`, and decodes to the text. -/
theorem C11_text_escaped (s : Bytes) :
    (∀ c ∈ (writeText s).flatten, c ≠ c! '<' ∧ c ≠ c! '>') ∧ decode (writeText s).flatten = s := by
  rw [writeText_flatten]
  refine ⟨?_, decode_escape _ _⟩
  intro c hc
  obtain ⟨x, _, hx⟩ := List.mem_flatMap.1 hc
  have := esc1_safe false x c hx
  exact ⟨this.1, this.2.1⟩

/-- **C11**, attribute values: what is written contains no `<`, `>` or `"`, and decodes to the value. -/
theorem C11_attr_escaped (s : Bytes) :
    (∀ c ∈ (writeAttr s).flatten, c ≠ c! '<' ∧ c ≠ c! '>' ∧ c ≠ c! '"') ∧
    decode (writeAttr s).flatten = s := by
  rw [writeAttr_flatten]
  refine ⟨?_, decode_escape _ _⟩
  intro c hc
  obtain ⟨x, _, hx⟩ := List.mem_flatMap.1 hc
  have := esc1_safe true x c hx
  exact ⟨this.1, this.2.1, this.2.2 rfl⟩

/-- **C11**, events: a `Str` event outside raw content writes its text escaped, also inside the alt
text of an image; nothing else is written. -/
theorem C11_str_event (r : Renderer) (s : Bytes) (h0 : r.raw = .none) (h1 : r.footnotes.open_ = [])
    (h2 : r.ignore = false) :
    ∃ r' o, r.pushEvent (.str s) = .ok (r', o) ∧ decode o.flatten = s ∧
      (∀ c ∈ o.flatten, c ≠ c! '<' ∧ c ≠ c! '>' ∧ (0 < r.imgAltText → c ≠ c! '"')) := by
  have hf : r.filter (.str s) = none := by simp [Renderer.filter, h1, h2]
  have : r.pushEvent (.str s) = .ok ({ r with firstLine := false }, r.str s) := by
    unfold Renderer.pushEvent
    have : r.fuel = (r.fuel - 1) + 1 := by unfold Renderer.fuel; omega
    rw [this]
    simp [Renderer.event, hf, Renderer.core]
  refine ⟨_, _, this, ?_⟩
  unfold Renderer.str
  rw [h0]
  simp only
  split
  · have := C11_attr_escaped s
    exact ⟨this.2, fun c hc => ⟨(this.1 c hc).1, (this.1 c hc).2.1, fun _ => (this.1 c hc).2.2⟩⟩
  · have := C11_text_escaped s
    exact ⟨this.2, fun c hc => ⟨(this.1 c hc).1, (this.1 c hc).2, fun h => absurd h (by assumption)⟩⟩

example : (writeText (b! "a<b & \"c\">")).flatten = b! "a&lt;b &amp; \"c\"&gt;" := by decide +kernel
example : (Renderer.default).raw = .none ∧ (Renderer.default).footnotes.open_ = [] ∧
    (Renderer.default).ignore = false := by decide

end Jotdown.Html
