import Verif.Props.Spelled
/-! # C39: where verbatim text ends -/
namespace Jotdown
open Jotdown
open Jotdown.Notation

/-- Verbatim text starts and ends with these events, and no other verbatim text is between them. -/
structure VerbatimAt (evs : List (Event × Span)) (a : Attr.Attributes) (s x : Span) : Prop where
  ex : ∃ A B C, evs = A ++ (.start .verbatim a, s) :: (B ++ (.end .verbatim, x) :: C) ∧
    ∀ e ∈ B, e.1 ≠ .end .verbatim ∧ ∀ a', e.1 ≠ .start .verbatim a'

/-- What is written for verbatim text that starts at `s` and ends at `x`, if `Content n t` tells which text `t` can follow `n` backticks
and `Closed n t` which text can be between two runs of `n` backticks. -/
def VerbatimWritten (src : Bytes) (a : Attr.Attributes) (s x : Span) (Content Closed : Nat → Bytes → Prop) : Prop :=
  ∃ n b w, 0 < n ∧ textAt src s = ticks n ∧ textAt src x = b ++ w ∧ WrittenAttrs w a ∧
    ((b = ticks n ∧ Closed n (textAt src ⟨s.stop, x.start⟩)) ∨ (b = [] ∧ Content n (textAt src ⟨s.stop, x.start⟩)))

/-- There is no run of exactly `n` backticks in `t`. -/
def NoRunAtAll (n : Nat) (t : Bytes) : Prop :=
  ∀ u w, t = u ++ ticks n ++ w → u.getLast? ≠ some (c! '`') → w.head? ≠ some (c! '`') → False

/-- The property C39: verbatim text that starts with `n` backticks ends at the first run of `n` backticks, or at the end of the block. -/
def C39 : Prop := ∀ (src : Bytes), Utf8 src → ∀ evs, offsetEvents src = .ok evs → ∀ a s x, VerbatimAt evs a s x →
  VerbatimWritten src a s x NoRunAtAll NoRunAtAll

/-- Opened elements below `k` and those above it, none of them verbatim. -/
theorem spells_keep {src : Bytes} {R : Resolver} {l : Bool} {st st' : List Opened} {es : List (Event × Span)} (h : Spells src R l st es st')
    (hB : ∀ e ∈ es, e.1 ≠ .end .verbatim ∧ ∀ a', e.1 ≠ .start .verbatim a') {a : Attr.Attributes} {s : Span} :
    (∃ up t low, st = up ++ ⟨.verbatim, a, s, t⟩ :: low ∧ ∀ o ∈ up, o.c ≠ .verbatim) → ∃ up t low, st' = up ++ ⟨.verbatim, a, s, t⟩ :: low ∧ ∀ o ∈ up, o.c ≠ .verbatim := by
  induction h with
  | nil => exact id
  | @cons l st st1 st' e es h1 h2 ih =>
    intro ⟨up, t, low, hst, hup⟩
    have more : ∀ u, st1 = moreText st u → ∃ up t low, st1 = up ++ ⟨.verbatim, a, s, t⟩ :: low ∧ ∀ o ∈ up, o.c ≠ .verbatim := by
      intro u hu
      refine ⟨up.map fun k => { k with text := k.text ++ u }, t ++ u, moreText low u, by rw [hu, hst]; simp [moreText], ?_⟩
      intro o ho
      obtain ⟨o', ho', rfl⟩ := List.mem_map.1 ho
      exact hup o' ho'
    refine ih (fun e he => hB e (by simp [he])) ?_
    obtain ⟨b1, b2⟩ := hB e (by simp)
    obtain ⟨ev, sp⟩ := e
    cases ev with
    | start c a =>
      have h1' : st1 = if isInline c then ⟨c, a, sp, []⟩ :: st else st := h1
      by_cases hc : isInline c = true
      · rw [if_pos hc] at h1'
        refine ⟨⟨c, a, sp, []⟩ :: up, t, low, by rw [h1', hst]; rfl, ?_⟩
        intro o ho
        rcases List.mem_cons.1 ho with rfl | ho
        · intro hv
          simp only at hv
          exact b2 a (by simp only [hv])
        · exact hup o ho
      · rw [if_neg hc] at h1'
        exact ⟨up, t, low, by rw [h1', hst], hup⟩
    | «end» c =>
      have h1' : if isInline c then ∃ k, st = k :: st1 ∧ k.c = c ∧ Closes src R k sp else st1 = st := h1
      by_cases hc : isInline c = true
      · rw [if_pos hc] at h1'
        obtain ⟨k', e1, e2, -⟩ := h1'
        cases up with
        | nil =>
          rw [hst] at e1
          simp at e1
          rw [← e1.1] at e2
          exact absurd (by simp only [← e2]) b1
        | cons u up =>
          rw [hst] at e1
          simp at e1
          exact ⟨up, t, low, e1.2.symm, fun o ho => hup o (by simp [ho])⟩
      · rw [if_neg hc] at h1'
        exact ⟨up, t, low, by rw [h1', hst], hup⟩
    | attributes a => have h1' : st1 = st ∧ _ := h1; exact ⟨up, t, low, by rw [h1'.1, hst], hup⟩
    | _ => exact more _ (show st1 = moreText st _ ∧ _ from h1).1

theorem spells_split {src : Bytes} {R : Resolver} {l : Bool} {st st' : List Opened} {es es' : List (Event × Span)} (h : Spells src R l st (es ++ es') st') :
    ∃ l1 st1, Spells src R l st es st1 ∧ Spells src R l1 st1 es' st' := by
  induction es generalizing l st with
  | nil => exact ⟨l, st, .nil, h⟩
  | cons e es ih =>
    cases h with
    | cons h1 h2 =>
      obtain ⟨l1, st1, g1, g2⟩ := ih h2
      exact ⟨l1, st1, .cons h1 g1, g2⟩

/-- The delimiters of verbatim text in events that are written as they should be. -/
theorem spelled_verbatim {src : Bytes} {R : Resolver} {evs : List (Event × Span)} (h : Spelled src R evs) {a : Attr.Attributes} {s x : Span}
    (hv : VerbatimAt evs a s x) : VerbatimWritten src a s x NoRun Inside := by
  obtain ⟨A, B, C, rfl, hB⟩ := hv.ex
  obtain ⟨l1, st1, -, h2⟩ := spells_split h
  cases h2 with
  | @cons _ _ st2 _ _ _ h2 h3 =>
    have e2 : st2 = ⟨.verbatim, a, s, []⟩ :: st1 := h2
    obtain ⟨l3, st3, h4, h5⟩ := spells_split h3
    obtain ⟨up, t, low, hst, hup⟩ := spells_keep h4 hB (a := a) (s := s) ⟨[], [], st1, e2, by simp⟩
    cases h5 with
    | @cons _ _ st4 _ _ _ h5 h6 =>
      obtain ⟨k, e3, e4, b, w, own, c1, c2, c3⟩ : ∃ k, st3 = k :: st4 ∧ k.c = .verbatim ∧ Closes src R k x := h5
      have hk : k = ⟨.verbatim, a, s, t⟩ := by
        cases up with
        | nil => rw [hst] at e3; simp at e3; exact e3.1.symm
        | cons u up => rw [hst] at e3; simp at e3; exact absurd (e3.1 ▸ e4) (hup u (by simp))
      subst hk
      obtain ⟨d1, n, d2, d3, d4⟩ : a = own ∧ Ticked [] (textAt src s) (textAt src ⟨s.stop, x.start⟩) b := c3
      subst d1
      exact ⟨n, b, w, d2, d3, c1, c2, d4⟩

/-- **C39**, for the line where verbatim text starts: it ends at the first run of as many backticks as at its start, whatever
else is in between, or at the end of the block. Missing is what happens on later lines, see `C39_fails`. -/
theorem C39_verbatim_partial (src : Bytes) (hu : Utf8 src) (evs : List (Event × Span)) (h : offsetEvents src = .ok evs) (a : Attr.Attributes) (s x : Span)
    (hv : VerbatimAt evs a s x) : VerbatimWritten src a s x NoRun Inside := by
  obtain ⟨p, -, hs⟩ := inline_spelled hu h
  exact spelled_verbatim hs hv

/-- If it does not span lines, nothing is missing. -/
theorem C39_single_line_partial (src : Bytes) (hu : Utf8 src) (evs : List (Event × Span)) (h : offsetEvents src = .ok evs) (a : Attr.Attributes) (s x : Span)
    (hv : VerbatimAt evs a s x) (hl : c! '\n' ∉ textAt src ⟨s.stop, x.start⟩) :
    VerbatimWritten src a s x NoRunAtAll (fun n t => NoRunAtAll n t ∧ t.getLast? ≠ some (c! '`')) := by
  obtain ⟨n, b, w, h1, h2, h3, h4, h5⟩ := C39_verbatim_partial src hu evs h a s x hv
  have key : NoRun n (textAt src ⟨s.stop, x.start⟩) → NoRunAtAll n (textAt src ⟨s.stop, x.start⟩) := by
    intro hn u v ht
    exact hn u v ht (fun hm => hl (by rw [ht]; simp [hm]))
  refine ⟨n, b, w, h1, h2, h3, h4, ?_⟩
  rcases h5 with ⟨h5, h6⟩ | ⟨h5, h6⟩
  · exact .inl ⟨h5, key h6.1, h6.2 hl⟩
  · exact .inr ⟨h5, key h6⟩

/-- A document where a backslash hides the end of verbatim text. -/
def hidden : Bytes := b! "`a\nb\\` c\n"

theorem hidden_utf8 : Utf8 hidden := ⟨"`a\nb\\` c\n".toList, by decide +kernel⟩

theorem hidden_events : offsetEvents hidden = .ok [(.start .document [], ⟨0, 0⟩), (.start .paragraph [], ⟨0, 0⟩), (.start .verbatim [], ⟨0, 1⟩),
    (.str (b! "a\nb\\` c"), ⟨1, 8⟩), (.end .verbatim, ⟨8, 8⟩), (.end .paragraph, ⟨9, 9⟩), (.end .document, ⟨9, 9⟩)] := by
  decide +kernel

/-- **C39** does not hold: on the second line of verbatim text a backslash before the closing backtick keeps the text open. -/
theorem C39_fails : ¬ C39 := by
  intro hC
  have hv : VerbatimAt [(.start .document [], ⟨0, 0⟩), (.start .paragraph [], ⟨0, 0⟩), (.start .verbatim [], ⟨0, 1⟩),
    (.str (b! "a\nb\\` c"), ⟨1, 8⟩), (.end .verbatim, ⟨8, 8⟩), (.end .paragraph, ⟨9, 9⟩), (.end .document, ⟨9, 9⟩)] [] ⟨0, 1⟩ ⟨8, 8⟩ := by
    refine ⟨[(.start .document [], ⟨0, 0⟩), (.start .paragraph [], ⟨0, 0⟩)], [(.str (b! "a\nb\\` c"), ⟨1, 8⟩)],
      [(.end .paragraph, ⟨9, 9⟩), (.end .document, ⟨9, 9⟩)], rfl, ?_⟩
    intro e he
    simp at he
    subst he
    exact ⟨by simp, by simp⟩
  obtain ⟨n, b, w, h1, h2, h3, h4, h5⟩ := hC hidden hidden_utf8 _ hidden_events [] ⟨0, 1⟩ ⟨8, 8⟩ hv
  have h2' : b! "`" = ticks n := h2
  have hn : n = 1 := by
    have := congrArg List.length h2'
    simpa [ticks] using this.symm
  subst hn
  have ht : textAt hidden ⟨1, 8⟩ = b! "a\nb\\" ++ ticks 1 ++ b! " c" := rfl
  rcases h5 with ⟨h5, h6⟩ | ⟨h5, h6⟩
  · exact h6 _ _ ht (by decide) (by decide)
  · exact h6 _ _ ht (by decide) (by decide)

/-- The hypotheses of the partial theorem are met by a document with a shorter and a longer run in the text. -/
example : ∃ evs, offsetEvents (b! "x ``a ` \\``{.k} b\n") = .ok evs ∧ VerbatimAt evs [(.cls, b! "k")] ⟨2, 4⟩ ⟨9, 15⟩ := by
  refine ⟨[(.start .document [], ⟨0, 0⟩), (.start .paragraph [], ⟨0, 0⟩), (.str (b! "x "), ⟨0, 2⟩)] ++ (.start .verbatim [(.cls, b! "k")], ⟨2, 4⟩) ::
    ([(.str (b! "a ` \\"), ⟨4, 9⟩)] ++ (.end .verbatim, ⟨9, 15⟩) :: [(.str (b! " b"), ⟨15, 17⟩), (.end .paragraph, ⟨18, 18⟩), (.end .document, ⟨18, 18⟩)]), by decide +kernel, ?_⟩
  refine ⟨_, _, _, rfl, ?_⟩
  intro e he
  simp at he
  subst he
  exact ⟨by simp, by simp⟩

end Jotdown
