import Verif.Props.Round
/-! # C49: text with its punctuation escaped is literal -/
namespace Jotdown
open Jotdown Jotdown.Notation Jotdown.Round

/-- A text with a backslash before each ASCII punctuation character. -/
def escapeText (s : Bytes) : Bytes := s.flatMap (fun c => if isPunct c then [c! '\\', c] else [c])

/-- The text of an event. -/
def Event.literal : Event → Bytes
  | .str s => s
  | _ => []

/-- The same text as inline content. -/
def escaped : Bytes → List Inl
  | [] => []
  | c :: s => (if isPunct c then .esc c else .text [c]) :: escaped s

theorem prints_escaped (s : Bytes) : prints (escaped s) = escapeText s := by
  induction s with
  | nil => rfl
  | cons c s ih =>
    simp only [escaped, prints, ih, escapeText, List.flatMap_cons]
    split <;> simp [Inl.print]

theorem plain_of_nopunct : ∀ c : UInt8, isPunct c = false → c ≠ c! '\n' → isPlain c = true := fun c => of_decide_eq_true (all_bytes (fun c => decide (isPunct c = false → c ≠ c! '\n' → isPlain c = true)) (by decide +kernel) c)

theorem escaped_ok (s : Bytes) (h : c! '\n' ∉ s) : InlsOk [] (escaped s) := by
  induction s with
  | nil => trivial
  | cons c s ih =>
    refine ⟨?_, ih (fun h' => h (by simp [h']))⟩
    by_cases hc : isPunct c = true
    · simp [hc, Inl.Ok]
    · simp only [hc, Bool.false_eq_true, if_false]
      refine ⟨by simp, fun x hx => ?_⟩
      rw [List.mem_singleton.1 hx]
      exact plain_of_nopunct c (by simpa using hc) (fun e => h (by simp [e]))

theorem escaped_follow (s : Bytes) : follow (escaped s) = true := by
  induction s with
  | nil => rfl
  | cons c s ih =>
    cases s with
    | nil => rfl
    | cons d s =>
      simp only [escaped, follow, Bool.and_eq_true]
      refine ⟨?_, ih⟩
      split <;> split <;> rfl

theorem literal_joined (es : List Event) : (joined es).flatMap Event.literal = es.flatMap Event.literal := by
  induction es with
  | nil => rfl
  | cons e es ih =>
    cases e with
    | str a =>
      unfold joined
      split
      · rename_i ha; subst ha; simpa [Event.literal] using ih
      · split
        · rename_i b es' he
          rw [he] at ih
          simp only [List.flatMap_cons, Event.literal, ← ih, List.append_assoc]
        · simp only [List.flatMap_cons, ih]
    | _ => simp only [joined, List.flatMap_cons, ih]

theorem joined_only (es : List Event) (h : ∀ e ∈ es, (∃ s, e = .str s) ∨ e = .escape) : ∀ e ∈ joined es, (∃ s, e = .str s) ∨ e = .escape := by
  induction es with
  | nil => simp [joined]
  | cons e es ih =>
    have ih := ih (fun x hx => h x (by simp [hx]))
    rcases h e (by simp) with ⟨a, rfl⟩ | rfl
    · unfold joined
      split
      · exact ih
      · split
        · rename_i b es' he
          rw [he] at ih
          intro x hx
          rcases List.mem_cons.1 hx with rfl | hx
          · exact .inl ⟨_, rfl⟩
          · exact ih x (by simp [hx])
        · intro x hx
          rcases List.mem_cons.1 hx with rfl | hx
          · exact .inl ⟨_, rfl⟩
          · exact ih x hx
    · intro x hx
      simp only [joined, List.mem_cons] at hx
      rcases hx with rfl | hx
      · exact .inr rfl
      · exact ih x hx

theorem escaped_literal (s : Bytes) : (inlEvents (escaped s)).flatMap Event.literal = s := by
  induction s with
  | nil => rfl
  | cons c s ih =>
    simp only [escaped, inlEvents, List.flatMap_append, ih]
    split <;> simp [Inl.events, Event.literal]

theorem escaped_events (s : Bytes) : ∀ e ∈ inlEvents (escaped s), (∃ s, e = .str s) ∨ e = .escape := by
  induction s with
  | nil => simp [escaped, inlEvents]
  | cons c s ih =>
    intro e he
    simp only [escaped, inlEvents, List.mem_append] at he
    rcases he with he | he
    · split at he
      · simp only [Inl.events, List.mem_cons, List.not_mem_nil, or_false] at he
        rcases he with rfl | rfl
        · exact .inr rfl
        · exact .inl ⟨_, rfl⟩
      · simp only [Inl.events, List.mem_cons, List.not_mem_nil, or_false] at he
        exact .inl ⟨_, he⟩
    · exact ih e he

theorem nonl_escapeText {s : Bytes} (h : c! '\n' ∉ s) : c! '\n' ∉ escapeText s := by
  intro hm
  simp only [escapeText, List.mem_flatMap] at hm
  obtain ⟨c, hc, hm⟩ := hm
  split at hm
  · simp only [List.mem_cons, List.not_mem_nil, or_false] at hm
    rcases hm with hm | hm
    · cases hm
    · exact h (hm ▸ hc)
  · simp only [List.mem_cons, List.not_mem_nil, or_false] at hm
    exact h (hm ▸ hc)

theorem punct_ascii : ∀ c : UInt8, isPunct c = true → c < 128 := fun c => of_decide_eq_true (all_bytes (fun c => decide (isPunct c = true → c < 128)) (by decide +kernel) c)

theorem cont_nopunct : ∀ c : UInt8, isCont c = true → isPunct c = false := fun c => of_decide_eq_true (all_bytes (fun c => decide (isCont c = true → isPunct c = false)) (by decide +kernel) c)

theorem flatMap_nopunct {l : Bytes} (h : ∀ c ∈ l, isPunct c = false) : l.flatMap (fun c => if isPunct c then [c! '\\', c] else [c]) = l := by
  induction l with
  | nil => rfl
  | cons c l ih => simp [List.flatMap_cons, h c (by simp), ih (fun x hx => h x (by simp [hx]))]

/-- Escaping keeps the text valid. -/
theorem utf8_escapeText {s : Bytes} (h : Utf8 s) : Utf8 (escapeText s) := by
  obtain ⟨l, rfl⟩ := h
  induction l with
  | nil => exact Utf8.nil
  | cons ch l ih =>
    simp only [List.flatMap_cons, escapeText, List.flatMap_append]
    refine Utf8.append ?_ ih
    obtain ⟨lead, conts, he, _, hconts, hascii⟩ := encode_shape ch
    by_cases hp : isPunct lead = true
    · have hl : lead < 128 := punct_ascii lead hp
      rw [he, hascii hl]
      simp only [List.flatMap_cons, hp, if_true, List.flatMap_nil, List.append_nil]
      apply utf8_ascii
      intro c hc
      simp only [List.mem_cons, List.not_mem_nil, or_false] at hc
      rcases hc with rfl | rfl
      · decide
      · exact hl
    · rw [flatMap_nopunct]
      · exact ⟨[ch], by simp⟩
      · intro c hc
        rw [he] at hc
        rcases List.mem_cons.1 hc with rfl | hc
        · simpa using hp
        · exact cont_nopunct c (hconts c hc)

/-- **C49.** Any line of text can be written literally: with a backslash before each ASCII punctuation character, it is a paragraph with nothing but text, which is the line. -/
theorem C49_escaped_text (s : Bytes) (hu : Utf8 s) (hn : c! '\n' ∉ s) (hh : ∃ c, s.head? = some c ∧ isWs c = false) (hl : ∃ c, s.getLast? = some c ∧ isWs c = false)
    (es : List Event) (he : events (escapeText s ++ [c! '\n']) = .ok es) :
    ∃ body, es = [.start .document [], .start .paragraph []] ++ body ++ [.end .paragraph, .end .document]
      ∧ body.flatMap Event.literal = s ∧ ∀ e ∈ body, (∃ t, e = .str t) ∨ e = .escape := by
  have hs : s ≠ [] := by rintro rfl; simp at hh
  have hne : escapeText s ≠ [] := by
    obtain ⟨c, t, rfl⟩ := List.exists_cons_of_ne_nil hs
    simp only [escapeText, List.flatMap_cons]
    split <;> simp
  have hsp : splitNl (prints (escaped s)) = [escapeText s] := by
    rw [prints_escaped]; exact splitNl_nonl (nonl_escapeText hn) hne
  have hok : BlksOk [.para (escaped s)] := by
    refine ⟨⟨escaped_ok s hn, escaped_follow s, ?_, ?_, ?_⟩, rfl, trivial⟩
    · obtain ⟨c, t, rfl⟩ := List.exists_cons_of_ne_nil hs
      simp only [escaped]
      split
      · rfl
      · rename_i h
        simp only [opens, Bool.and_eq_true, bne_iff_ne, ne_eq]
        constructor <;> (rintro rfl; exact h (by decide))
    · rw [hsp]
      intro l hl'
      rw [List.mem_singleton.1 hl']
      obtain ⟨c, t, rfl⟩ := List.exists_cons_of_ne_nil hs
      simp only [List.head?_cons, Option.some.injEq, exists_eq_left'] at hh
      simp only [escapeText, List.flatMap_cons]
      split
      · exact ⟨_, rfl, by decide⟩
      · exact ⟨_, rfl, hh⟩
    · rw [prints_escaped]
      obtain ⟨c, hc, hw⟩ := hl
      refine ⟨c, ?_, hw⟩
      obtain ⟨t, rfl⟩ : ∃ t, s = t ++ [c] := by
        rw [List.getLast?_eq_some_iff] at hc
        exact hc
      simp only [escapeText, List.flatMap_append, List.flatMap_cons, List.flatMap_nil, List.append_nil]
      split <;> simp
  have hw : write [.para (escaped s)] = escapeText s ++ [c! '\n'] := by
    simp only [write, blkLines, Blk.lines, sep, List.append_nil, prints_escaped]
    obtain ⟨l, ls, h1, h2⟩ := splitNl_append (nonl_escapeText hn) [c! '\n'] (by simp)
    simp only [splitNl, if_true, List.cons.injEq] at h1
    rw [h2, ← h1.1, ← h1.2]
    simp
  have hu' : Utf8 (write [.para (escaped s)]) := by
    rw [hw]
    refine Utf8.append (utf8_escapeText hu) (utf8_ascii ?_)
    simp
  rw [← hw] at he
  have := C50_round_trip _ hok hu' es he
  refine ⟨joined (inlEvents (escaped s)), ?_, ?_, ?_⟩
  · rw [this]
    simp [docEvents, blkEvents, Blk.events, blankAfter]
  · rw [literal_joined, escaped_literal]
  · exact joined_only _ (escaped_events s)

/-- A line with every punctuation character. -/
def allPunct : Bytes := b! "!\"#$%&'()*+,-./:;<=>?@[\\]^_`{|}~ é"

example : ∃ es, events (escapeText allPunct ++ [c! '\n']) = .ok es := by
  refine ⟨docEvents [.para (escaped allPunct)], ?_⟩
  decide +kernel

example : c! '\n' ∉ allPunct ∧ (∃ c, allPunct.head? = some c ∧ isWs c = false) ∧ (∃ c, allPunct.getLast? = some c ∧ isWs c = false) := by
  refine ⟨by decide, ⟨_, rfl, by decide⟩, ⟨_, rfl, by decide⟩⟩

/-- A backslash directly after verbatim text does not escape: in `` `x`\*a* `` the asterisks delimit strong text. -/
theorem escape_after_verbatim : events (b! "`x`\\*a*\n") = .ok [.start .document [], .start .paragraph [], .start .verbatim [], .str (b! "x"), .end .verbatim,
    .escape, .start .strong [], .str (b! "a"), .end .strong, .end .paragraph, .end .document] := by
  decide +kernel

end Jotdown
