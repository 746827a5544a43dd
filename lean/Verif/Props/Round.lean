import Verif.Proofs.RoundTop
import Verif.Props.Parser
/-! # C49, C50: what was written is what is read -/
namespace Jotdown
open Jotdown Jotdown.Notation Jotdown.Round

/-- **C50.** Writing a document and parsing the text gives back the document: for every tree of paragraphs (with plain text, escaped characters, line breaks (soft and hard), verbatim
text (code, or text in the format of the output), dots, dashes, symbols, references to footnotes, addresses, quotations, links and images with destination, and delimited elements with or without braces, in any nesting), thematic breaks, code blocks, raw blocks, block quotes, divs, lists (with bullets, boxes or numerals, tight or not) and footnotes in any nesting, the events of the written text are those of the tree. -/
theorem C50_round_trip (d : List Round.Blk) (h : BlksOk d) (hu : Utf8 (write d)) (es : List Event) (he : events (write d) = .ok es) : es = docEvents d := by
  obtain ⟨evs, h1, rfl⟩ := events_ok he
  exact events_write h hu h1

/-- **C50**, with the parser known to finish: texts of less than 16 KiB. -/
theorem C50_round_trip_short (d : List Round.Blk) (h : BlksOk d) (hu : Utf8 (write d)) (hlen : (write d).length < 16383) : events (write d) = .ok (docEvents d) := by
  obtain ⟨evs, he⟩ := C31_no_panic_short (write d) hu hlen
  have := events_write h hu he
  rw [← this]
  unfold events
  rw [he]
  rfl

/-- A document with all kinds of blocks and of inline content. -/
def sampleDoc : List Round.Blk :=
  [.para [.link false [.elem .strong false [.text (b! "t")], .dots] (b! "u/v.html"), .dash true, .symbol (b! "smile"), .nbsp, .elem .subscript false [.text (b! "2")], .hard,
     .auto (b! "http://a.b"), .text (b! " "), .link true [.text (b! "i")] (b! "p.png")],
   .para [.text (b! "ab, 1"), .esc (c! '.'), .text (b! " "), .elem .emphasis true [.text (b! "x"), .soft, .elem .delete true [.code .plain 2 (b! "a`b")]], .soft, .esc (c! '*'), .text (b! "y*".dropLast), .apos],
   .quote [.div 4 (b! "note") [.brk, .code 3 (b! "rust") [b! "fn", b! "  ```x", b! ""], .div 3 [] []], .para [.code .plain 1 (b! " v "), .text (b! " "), .elem .single false [.elem .double true [.text (b! "q")]], .note (b! "n"), .right false, .text (b! " "), .code (.raw (b! "html")) 2 (b! "`")]],
   .list [.bullet .dash, .bullet .dash] false [[.para [.text (b! "a")], .list [.task .star true, .task .star false] true [[.para [.text (b! "b")]], [.para [.text (b! "c")]]], .brk], [.para [.text (b! "d")]]],
   .brk,
   .list [.ordered .romanLower .parenParen (b! "iv")] true [[.para [.text (b! "e")]]],
   .code 3 (b! "=html") [b! "<b>", b! "x"],
   .foot (b! "n") [.para [.text (b! "f")], .quote [.para [.text (b! "g")]]],
   .brk]

theorem noRun_of {n : Nat} {s : Bytes} (h : c! '`' ∉ s) (hn : 0 < n) : NoRun n s := by
  intro u w e _ _ _
  subst e
  apply h
  obtain ⟨m, rfl⟩ : ∃ m, n = m + 1 := ⟨n - 1, by omega⟩
  simp [ticks, List.replicate_succ]

theorem sample_run : NoRun 2 (b! "a`b") := by
  intro u w e _ _ _
  match u, e with
  | [], e => simp [ticks, List.replicate] at e
  | [a], e => simp [ticks, List.replicate] at e
  | a :: b :: u, e =>
    have := congrArg List.length e
    simp [ticks, List.replicate] at this
    omega

theorem sample_tick : NoRun 2 (b! "`") := by
  intro u w e _ _ _
  have := congrArg List.length e
  simp [ticks, List.replicate] at this
  omega

/-- Text without backticks. -/
theorem code_plain {n : Nat} {s : Bytes} (hn : 0 < n) (hn2 : n < 256) (hs : s ≠ []) (h : c! '`' ∉ s) (hnl : c! '\n' ∉ s) : CodeOk n s :=
  ⟨hn, hn2, hs, hnl, fun w r e _ => absurd (by rw [e]; simp) h, fun r w e _ => absurd (by rw [e]; simp) h, noRun_of h hn⟩

theorem sample_tick_ok : CodeOk 2 (b! "`") := by
  refine ⟨by decide, by decide, by decide, by decide, ?_, ?_, sample_tick⟩
  · intro w r e hw
    cases w with
    | nil => exact absurd rfl hw
    | cons a w => simp at e
  · intro r w e hw
    cases r with
    | nil => simp at e; exact absurd e hw
    | cons a r => simp at e

theorem sample_code_ok : CodeOk 2 (b! "a`b") := by
  refine ⟨by decide, by decide, by decide, by decide, ?_, ?_, sample_run⟩
  · intro w r e hw
    cases w with
    | nil => exact absurd rfl hw
    | cons a w => simp at e; exact ⟨a, by simp, by rw [← e.1]; decide⟩
  · intro r w e hw
    match r, e with
    | [], e => simp at e
    | [a], e =>
      simp at e
      exact ⟨c! 'b', by rw [← e.2]; simp, by decide⟩
    | [a, b], e => simp at e
    | a :: b :: c :: r, e => simp at e

/-- A paragraph with one letter. -/
theorem letter_ok (c : UInt8) (h : c ∈ b! "abcdefg") : (Blk.para [.text [c]]).Ok := by
  simp only [List.mem_cons, List.not_mem_nil, or_false] at h
  rcases h with rfl | rfl | rfl | rfl | rfl | rfl | rfl <;>
  · refine ⟨⟨⟨by decide, by decide⟩, trivial⟩, rfl, rfl, ?_, ⟨_, rfl, rfl⟩⟩
    intro l hl
    simp only [prints, Inl.print, splitNl, List.append_nil] at hl
    simp at hl
    subst hl
    exact ⟨_, rfl, rfl⟩

theorem sample_quote : (Inl.elem .single false [.elem .double true [.text (b! "q")]]).Ok [] := by
  refine ⟨rfl, by simp, ⟨⟨_, rfl, rfl⟩, ⟨_, rfl, rfl⟩⟩, rfl, rfl, ⟨by simp, fun _ => ⟨⟨_, rfl, rfl⟩, ⟨_, rfl, rfl⟩⟩, rfl, rfl, ⟨by decide, by decide⟩, trivial⟩, trivial⟩

theorem sample_gaps {tight : Bool} {items : List (List Round.Blk)} (h : true ∈ itemGaps tight items → true ∈ (itemGaps tight items).dropLast) : GapsOk tight items := h

/-- The sample can be written. -/
example : BlksOk sampleDoc := by
  have c1 := sample_code_ok
  have c2 : CodeOk 1 (b! " v ") := code_plain (by decide) (by decide) (by decide) (by decide) (by decide)
  have c3 : (Verb.raw (b! "html")).Ok := ⟨by decide, by decide⟩
  refine ⟨⟨?_, by decide, by decide, ?_, ⟨c! ')', by decide, by decide⟩⟩, rfl, ⟨?_, by decide, by decide, ?_, ⟨c! '\'', by decide, by decide⟩⟩, rfl, ⟨by simp, ⟨by decide, by decide, ?_, ?_⟩, rfl, ⟨⟨⟨c2, trivial⟩, ⟨by decide, by decide⟩, sample_quote, ⟨(by unfold NoteLabel; decide), by decide⟩, (by simp [Inl.Ok]), ⟨by decide, by decide⟩, ⟨sample_tick_ok, c3⟩, trivial⟩, by decide, by decide, ?_, ⟨c! '}', by decide, by decide⟩⟩, rfl, trivial⟩, rfl, ?_, rfl, trivial, rfl, ?_, rfl, ⟨by decide, by decide, ?_, ?_⟩, rfl,
    ⟨(by unfold NoteLabel; decide), rfl, ⟨letter_ok (c! 'f') (by decide), rfl, ⟨by simp, letter_ok (c! 'g') (by decide), rfl, trivial⟩, rfl, trivial⟩, rfl⟩, rfl, trivial, rfl, trivial⟩
  · simp only [InlsOk, Inl.Ok]
    refine ⟨⟨rfl, rfl, fun _ => rfl, by decide, ⟨rfl, by decide, ⟨⟨_, rfl, rfl⟩, ⟨_, rfl, rfl⟩⟩, rfl, rfl, ⟨by decide, by decide⟩, trivial⟩, trivial, trivial⟩, trivial, ⟨by decide, (by unfold SymbolName; decide)⟩, trivial,
      ⟨rfl, by decide, ⟨⟨_, rfl, rfl⟩, ⟨_, rfl, rfl⟩⟩, rfl, rfl, ⟨by decide, by decide⟩, trivial⟩, trivial, ⟨.inl (by decide), by decide⟩, ⟨by decide, by decide⟩, ⟨rfl, rfl, by decide, by decide, ⟨by decide, by decide⟩, trivial⟩, trivial⟩
  · intro l hl
    have e : splitNl (prints [.link false [.elem .strong false [.text (b! "t")], .dots] (b! "u/v.html"), .dash true, .symbol (b! "smile"), .nbsp, .elem .subscript false [.text (b! "2")], .hard,
        .auto (b! "http://a.b"), .text (b! " "), .link true [.text (b! "i")] (b! "p.png")])
      = [b! "[*t*...](u/v.html)---:smile:\\ ~2~\\\n", b! "<http://a.b> ![i](p.png)"] := by decide
    rw [e] at hl
    simp only [List.mem_cons, List.not_mem_nil, or_false] at hl
    rcases hl with rfl | rfl <;> exact ⟨_, rfl, by decide⟩
  · exact ⟨⟨by decide, by decide⟩, (by decide : isPunct (c! '.') = true), ⟨by decide, by decide⟩, ⟨by simp, (fun h => by cases h), by decide, by decide, ⟨by decide, by decide⟩, trivial, ⟨by simp, (fun h => by cases h), by decide, by decide, ⟨c1, trivial⟩, trivial⟩, trivial⟩, trivial, (by decide : isPunct (c! '*') = true), ⟨by decide, by decide⟩, (fun h => by cases h), trivial⟩
  · intro l hl
    have e : splitNl (prints [.text (b! "ab, 1"), .esc (c! '.'), .text (b! " "), .elem .emphasis true [.text (b! "x"), .soft, .elem .delete true [.code .plain 2 (b! "a`b")]], .soft, .esc (c! '*'), .text (b! "y*".dropLast), .apos])
      = [b! "ab, 1\\. {_x\n", b! "{-``a`b``-}_}\n", b! "\\*y'"] := by decide
    rw [e] at hl
    simp only [List.mem_cons, List.not_mem_nil, or_false] at hl
    rcases hl with rfl | rfl | rfl <;> exact ⟨_, rfl, by decide⟩
  · refine ⟨trivial, rfl, ⟨by decide, by decide, (fun h => absurd h (by decide)), ?_⟩, rfl, ⟨by decide, by simp, trivial, by simp⟩, rfl, trivial⟩
    intro l hl
    simp only [List.mem_cons, List.not_mem_nil, or_false] at hl
    rcases hl with rfl | rfl | rfl <;> exact ⟨by decide, by decide⟩
  · intro b hb
    simp only [List.mem_cons, List.not_mem_nil, or_false] at hb
    rcases hb with rfl | rfl | rfl <;> decide
  · intro l hl
    have e : splitNl (prints [.code .plain 1 (b! " v "), .text (b! " "), .elem .single false [.elem .double true [.text (b! "q")]], .note (b! "n"), .right false, .text (b! " "), .code (.raw (b! "html")) 2 (b! "`")]) = [b! "` v ` '{\"q\"}'[^n]'} `` ` ``{=html}"] := by decide
    rw [e] at hl
    simp only [List.mem_cons, List.not_mem_nil, or_false] at hl
    subst hl
    exact ⟨_, rfl, by decide⟩
  · refine ⟨by simp, rfl, ?_, sample_gaps (by decide +kernel), rfl, ⟨letter_ok (c! 'a') (by decide), rfl, ⟨by simp, rfl, ?_, ?_, rfl, ⟨letter_ok (c! 'b') (by decide), rfl, trivial⟩, rfl, ⟨letter_ok (c! 'c') (by decide), rfl, trivial⟩, trivial⟩, rfl, trivial, rfl, trivial⟩, rfl, ⟨letter_ok (c! 'd') (by decide), rfl, trivial⟩, trivial⟩
    · simp [Label.Ok, Label.like]
    · simp [Label.Ok, Label.like]
    · exact sample_gaps (by decide +kernel)
  · refine ⟨by simp, rfl, ?_, ?_, rfl, ⟨letter_ok (c! 'e') (by decide), rfl, trivial⟩, trivial⟩
    · intro lb hlb
      simp only [List.mem_cons, List.not_mem_nil, or_false] at hlb
      subst hlb
      refine ⟨⟨by decide, by simp [Numbers.IsDigitOf], by simp [Syntax.NumeralOk], by decide⟩, ?_⟩
      intro lb0 h0
      cases h0
      exact ⟨rfl, rfl⟩
    · exact sample_gaps (by decide +kernel)
  · intro _ l hl
    cases hl
    exact ⟨_, rfl, rfl⟩
  · intro l hl
    simp only [List.mem_cons, List.not_mem_nil, or_false] at hl
    rcases hl with rfl | rfl <;> exact ⟨by decide, by decide⟩

/-- What the sample is written as. -/
example : write sampleDoc = b! "[*t*...](u/v.html)---:smile:\\ ~2~\\\n<http://a.b> ![i](p.png)\n\nab, 1\\. {_x\n{-``a`b``-}_}\n\\*y'\n\n> :::: note\n> ***\n>\n> ```rust\n> fn\n>   ```x\n>\n> ```\n>\n> ::: \n> :::\n> ::::\n>\n> ` v ` '{\"q\"}'[^n]'} `` ` ``{=html}\n\n- a\n\n * [x] b\n * [ ] c\n\n ***\n\n- d\n\n***\n\n(iv) e\n\n```=html\n<b>\nx\n```\n\n[^n]: f\n\n     > g\n\n***\n" := by
  decide +kernel

example : events (write sampleDoc) = .ok (docEvents sampleDoc) := by decide +kernel

/-- A sample document with tables: alignments before and after the head row, an empty cell, pipes in a cell, a table in an item. -/
def sampleTable : List Round.Blk :=
  [.table [.text (b! "T"), .soft, .elem .strong false [.text (b! "u")]] [.sep [.left], .row [[.text (b! "a")], []], .sep [.center, .right],
     .row [[.code .plain 2 (b! "a`b|")], [.elem .strong false [.text (b! "c")], .esc (c! '|')]]],
   .list [.bullet .dash, .bullet .dash] false [[.para [.text (b! "d")], .table [] [.row [[.text (b! "e")]]]], [.para [.text (b! "f")]]]]

theorem sample_bar_ok : CodeOk 2 (b! "a`b|") := by
  refine ⟨by decide, by decide, by decide, by decide, ?_, ?_, ?_⟩
  · intro w r e hw
    cases w with
    | nil => exact absurd rfl hw
    | cons a w => simp at e; exact ⟨a, by simp, by rw [← e.1]; decide⟩
  · intro r w e hw
    match r, e with
    | [], e => simp at e
    | [a], e =>
      simp at e
      exact ⟨c! '|', by rw [← e.2]; simp, by decide⟩
    | [a, b], e => simp at e
    | [a, b, c], e => simp at e
    | a :: b :: c :: d :: r, e => simp at e
  · intro u w e _ _ _
    match u, e with
    | [], e => simp [ticks, List.replicate] at e
    | [a], e => simp [ticks, List.replicate] at e
    | [a, b], e => simp [ticks, List.replicate] at e
    | a :: b :: c :: u, e =>
      have := congrArg List.length e
      simp [ticks, List.replicate] at this
      omega

theorem cell_letter (c : UInt8) (h : c ∈ b! "abcdefg") : CellOk [.text [c]] := by
  simp only [List.mem_cons, List.not_mem_nil, or_false] at h
  rcases h with rfl | rfl | rfl | rfl | rfl | rfl | rfl <;>
    exact .inr ⟨⟨⟨by decide, by decide⟩, trivial⟩, rfl, rfl, ⟨⟨_, rfl, rfl⟩, ⟨_, rfl, rfl⟩⟩, by decide, by decide +kernel⟩

/-- The tables can be written. -/
example : BlksOk sampleTable := by
  refine ⟨⟨⟨List.cons_ne_nil _ _, ?_⟩, .inr ⟨⟨⟨by decide, by decide⟩, trivial, ⟨rfl, by decide, ⟨⟨_, rfl, rfl⟩, ⟨_, rfl, rfl⟩⟩, rfl, rfl, ⟨by decide, by decide⟩, trivial⟩, trivial⟩, rfl, rfl, ?_, ⟨c! '*', rfl, rfl⟩⟩⟩, rfl, ⟨by simp, rfl, ?_, sample_gaps (by decide +kernel), rfl, ⟨letter_ok (c! 'd') (by decide), rfl, ⟨⟨List.cons_ne_nil _ _, ?_⟩, .inl rfl⟩, rfl, trivial⟩, rfl, ⟨letter_ok (c! 'f') (by decide), rfl, trivial⟩, trivial⟩, rfl, trivial⟩
  · intro l hl
    simp only [List.mem_cons, List.not_mem_nil, or_false] at hl
    rcases hl with rfl | rfl | rfl | rfl
    · exact (by simp [TabLine.Ok])
    · refine ⟨?_, _, List.mem_cons_self, by decide +kernel⟩
      intro c hc
      simp only [List.mem_cons, List.not_mem_nil, or_false] at hc
      rcases hc with rfl | rfl
      · exact cell_letter _ (by decide)
      · exact .inl rfl
    · exact (by simp [TabLine.Ok])
    · refine ⟨?_, _, List.mem_cons_self, by decide +kernel⟩
      intro c hc
      simp only [List.mem_cons, List.not_mem_nil, or_false] at hc
      rcases hc with rfl | rfl
      · exact .inr ⟨⟨⟨sample_bar_ok, trivial⟩, trivial⟩, rfl, rfl, ⟨⟨_, rfl, rfl⟩, ⟨_, rfl, rfl⟩⟩, by decide, by decide +kernel⟩
      · exact .inr ⟨⟨⟨rfl, by decide, ⟨⟨_, rfl, rfl⟩, ⟨_, rfl, rfl⟩⟩, rfl, rfl, ⟨by decide, by decide⟩, trivial⟩, (by decide : isPunct (c! '|') = true), trivial⟩, rfl, rfl, ⟨⟨_, rfl, rfl⟩, ⟨_, rfl, rfl⟩⟩, by decide, by decide +kernel⟩
  · intro l hl
    have e : splitNl (prints [.text (b! "T"), .soft, .elem .strong false [.text (b! "u")]]) = [b! "T\n", b! "*u*"] := by decide
    rw [e] at hl
    simp only [List.mem_cons, List.not_mem_nil, or_false] at hl
    rcases hl with rfl | rfl <;> exact ⟨_, rfl, by decide⟩
  · simp [Label.Ok, Label.like]
  · intro l hl
    simp only [List.mem_cons, List.not_mem_nil, or_false] at hl
    subst hl
    refine ⟨?_, _, List.mem_cons_self, by decide +kernel⟩
    intro c hc
    simp only [List.mem_cons, List.not_mem_nil, or_false] at hc
    subst hc
    exact cell_letter _ (by decide)

/-- What the tables are written as. -/
example : write sampleTable = b! "|:--|\n| a |  |\n|:-:|--:|\n| ``a`b|`` | *c*\\| |\n^ T\n*u*\n\n- d\n\n | e |\n\n- f\n" := by
  decide +kernel

example : events (write sampleTable) = .ok (docEvents sampleTable) := by decide +kernel

/-- A sample document with attributes: on a paragraph, in two lines; on a list after a list; on a thematic break in an item; on a list in a block quote. -/
def sampleAttr : List Round.Blk :=
  [.attr [] [(.cls (b! "c"), b! " "), (.id (b! "i"), b! " "), (.bare (b! "k") (b! "v"), b! " "), (.quoted (b! "q") (b! "x y"), []), (.comment (b! " n "), [])]
     (.attr (b! " ") [(.cls (b! "d"), [])] (.para [.text (b! "a")])),
   .list [.bullet .dash] true [[.para [.text (b! "b")]]],
   .attr [] [(.cls (b! "e"), [])] (.list [.bullet .dash, .bullet .dash] false [[.para [.text (b! "c")], .attr [] [(.id (b! "h"), [])] .brk], [.para [.text (b! "d")]]]),
   .quote [.attr [] [(.id (b! "l"), [])] (.list [.bullet .plus] true [[.para [.text (b! "e")]]])]]

/-- The sample can be written. -/
example : BlksOk sampleAttr := by
  have one : ∀ (lbs : List Label) (b : Bullet), lbs = [.bullet b] ∨ lbs = [.bullet b, .bullet b] → ∀ lb ∈ lbs, lb.Ok ∧ ∀ lb0, lbs.head? = some lb0 → lb0.like lb := by
    rintro lbs b (rfl | rfl) <;> simp [Label.Ok, Label.like]
  refine ⟨⟨by decide, ?_, by decide +kernel, by decide, ?_, by decide +kernel, letter_ok (c! 'a') (by decide)⟩, rfl, ⟨by simp, rfl, one _ _ (.inl rfl), ?_, rfl, ⟨letter_ok (c! 'b') (by decide), rfl, trivial⟩, trivial⟩, rfl,
    ⟨by decide, ?_, by decide +kernel, by simp, rfl, one _ _ (.inr rfl), sample_gaps (by decide +kernel), rfl, ⟨letter_ok (c! 'c') (by decide), rfl, ⟨by decide, ?_, by decide +kernel, trivial⟩, rfl, trivial⟩,
      rfl, ⟨letter_ok (c! 'd') (by decide), rfl, trivial⟩, trivial⟩, rfl,
    ⟨by simp, ⟨by decide, ?_, by decide +kernel, by simp, rfl, one _ _ (.inl rfl), ?_, rfl, ⟨letter_ok (c! 'e') (by decide), rfl, trivial⟩, trivial⟩, rfl, trivial⟩, rfl, trivial⟩
  · exact ⟨(by decide : Attr.Name _), by decide, by simp, (by decide : Attr.Name _), by decide, by simp, (by decide : Attr.Name _ ∧ Attr.Name _), by decide, by simp,
      (by decide : Attr.Name _ ∧ Attr.QuotedOk _), by decide, .inr (.inr rfl), (by decide : _ ∉ _ ∧ _ ∉ _), by decide, .inl rfl, trivial⟩
  · exact ⟨(by decide : Attr.Name _), by decide, .inl rfl, trivial⟩
  · exact sample_gaps (by decide +kernel)
  · exact ⟨(by decide : Attr.Name _), by decide, .inl rfl, trivial⟩
  · exact ⟨(by decide : Attr.Name _), by decide, .inl rfl, trivial⟩
  · exact ⟨(by decide : Attr.Name _), by decide, .inl rfl, trivial⟩
  · exact sample_gaps (by decide +kernel)

/-- What it is written as. -/
example : write sampleAttr = b! "{.c #i k=v q=\"x y\"% n %}\n{ .d}\na\n\n- b\n\n{.e}\n- c\n\n {#h}\n ***\n\n- d\n\n> {#l}\n> + e\n" := by
  decide +kernel

example : events (write sampleAttr) = .ok (docEvents sampleAttr) := by decide +kernel

/-- A sample document with mathematics, displayed and in the text. -/
def sampleMath : List Round.Blk :=
  [.para [.text (b! "see "), .code (.math true) 2 (b! "a`b"), .text (b! " or"), .code (.math false) 2 (b! "`"), .dots, .esc (c! '$')],
   .brk,
   .para [.elem .strong false [.text (b! "y"), .code (.math false) 2 (b! "a`b")], .code .plain 2 (b! "`")]]

/-- The sample can be written. -/
example : BlksOk sampleMath := by
  have c1 := sample_code_ok
  have c2 := sample_tick_ok
  refine ⟨⟨⟨⟨by decide, by decide⟩, ⟨c1, trivial⟩, ⟨by decide, by decide⟩, ⟨c2, trivial⟩, trivial, (by decide : isPunct (c! '$') = true), trivial⟩, by decide, by decide, ?_, ⟨c! '$', by decide, by decide⟩⟩, rfl, trivial, rfl,
    ⟨⟨⟨rfl, by decide, ⟨⟨_, rfl, rfl⟩, ⟨_, rfl, rfl⟩⟩, rfl, rfl, ⟨by decide, by decide⟩, ⟨c1, trivial⟩, trivial⟩, ⟨c2, trivial⟩, trivial⟩, by decide, by decide, ?_, ⟨c! '`', by decide, by decide⟩⟩, rfl, trivial⟩
  · intro l hl
    have e : splitNl (prints [.text (b! "see "), .code (.math true) 2 (b! "a`b"), .text (b! " or"), .code (.math false) 2 (b! "`"), .dots, .esc (c! '$')])
      = [b! "see $$``a`b`` or$`` ` ``...\\$"] := by decide
    rw [e] at hl
    simp only [List.mem_cons, List.not_mem_nil, or_false] at hl
    subst hl
    exact ⟨_, rfl, by decide⟩
  · intro l hl
    have e : splitNl (prints [.elem .strong false [.text (b! "y"), .code (.math false) 2 (b! "a`b")], .code .plain 2 (b! "`")])
      = [b! "*y$``a`b``*`` ` ``"] := by decide
    rw [e] at hl
    simp only [List.mem_cons, List.not_mem_nil, or_false] at hl
    subst hl
    exact ⟨_, rfl, by decide⟩

/-- What it is written as. -/
example : write sampleMath = b! "see $$``a`b`` or$`` ` ``...\\$\n\n***\n\n*y$``a`b``*`` ` ``\n" := by decide +kernel

example : events (write sampleMath) = .ok (docEvents sampleMath) := by decide +kernel

/-- A sample document with description lists: with details, without them, in an item of another list, with a list as details. -/
def sampleDesc : List Round.Blk :=
  [.list [.desc, .desc] false [[.para [.text (b! "a")], .para [.text (b! "b")], .quote [.para [.text (b! "c")]]], [.para [.text (b! "d")]]],
   .brk,
   .list [.bullet .dash, .bullet .dash] false [[.para [.text (b! "e")]],
     [.para [.text (b! "f")], .list [.desc, .desc] true [[.para [.text (b! "g")], .list [.bullet .star] true [[.para [.text (b! "a")]]]], [.para [.text (b! "b")]]]]]]

/-- The sample can be written. -/
example : BlksOk sampleDesc := by
  refine ⟨⟨by simp, rfl, by simp [Label.Ok, Label.like], sample_gaps (by decide +kernel),
      rfl, ⟨letter_ok (c! 'a') (by decide), rfl, letter_ok (c! 'b') (by decide), rfl, ⟨by simp, letter_ok (c! 'c') (by decide), rfl, trivial⟩, rfl, trivial⟩,
      rfl, ⟨letter_ok (c! 'd') (by decide), rfl, trivial⟩, trivial⟩, rfl, trivial, rfl,
    ⟨by simp, rfl, by simp [Label.Ok, Label.like], sample_gaps (by decide +kernel), rfl, ⟨letter_ok (c! 'e') (by decide), rfl, trivial⟩,
      rfl, ⟨letter_ok (c! 'f') (by decide), rfl, ⟨by simp, rfl, by simp [Label.Ok, Label.like], ?_,
        rfl, ⟨letter_ok (c! 'g') (by decide), rfl, ⟨by simp, rfl, by simp [Label.Ok, Label.like], ?_, rfl, ⟨letter_ok (c! 'a') (by decide), rfl, trivial⟩, trivial⟩, rfl, trivial⟩,
        rfl, ⟨letter_ok (c! 'b') (by decide), rfl, trivial⟩, trivial⟩, rfl, trivial⟩, trivial⟩, rfl, trivial⟩
  · exact sample_gaps (by decide +kernel)
  · exact sample_gaps (by decide +kernel)

/-- What it is written as. -/
example : write sampleDesc = b! ": a\n\n b\n\n > c\n\n: d\n\n***\n\n- e\n\n- f\n\n : g\n\n  * a\n : b\n" := by
  decide +kernel

example : events (write sampleDesc) = .ok (docEvents sampleDesc) := by decide +kernel

/-- A sample document with blank lines in items: before several blocks of a single item, in a block quote in an item; and blank lines that belong to
the last list in an item. -/
def sampleGaps : List Round.Blk :=
  [.list [.bullet .dash] true [[.para [.text (b! "a")], .quote [.para [.text (b! "b")], .para [.text (b! "c")]], .list [.bullet .plus] true [[.para [.text (b! "d")]]]]],
   .brk,
   .list [.desc] true [[.para [.text (b! "e")], .para [.text (b! "f")], .para [.text (b! "g")]]],
   .brk,
   .list [.bullet .star, .bullet .star] false [[.para [.text (b! "a")], .list [.bullet .plus] true [[.para [.text (b! "b")]]]], [.para [.text (b! "c")]]]]

/-- The sample can be written. -/
example : BlksOk sampleGaps := by
  refine ⟨⟨by simp, rfl, by simp [Label.Ok, Label.like], sample_gaps (by decide +kernel),
      rfl, ⟨letter_ok (c! 'a') (by decide), rfl, ⟨by simp, letter_ok (c! 'b') (by decide), rfl, letter_ok (c! 'c') (by decide), rfl, trivial⟩, rfl,
        ⟨by simp, rfl, by simp [Label.Ok, Label.like], sample_gaps (by decide +kernel), rfl, ⟨letter_ok (c! 'd') (by decide), rfl, trivial⟩, trivial⟩, rfl, trivial⟩, trivial⟩,
    rfl, trivial, rfl,
    ⟨by simp, rfl, by simp [Label.Ok, Label.like], sample_gaps (by decide +kernel),
      rfl, ⟨letter_ok (c! 'e') (by decide), rfl, letter_ok (c! 'f') (by decide), rfl, letter_ok (c! 'g') (by decide), rfl, trivial⟩, trivial⟩, rfl, trivial, rfl,
    ⟨by simp, rfl, by simp [Label.Ok, Label.like], sample_gaps (by decide +kernel),
      rfl, ⟨letter_ok (c! 'a') (by decide), rfl, ⟨by simp, rfl, by simp [Label.Ok, Label.like], sample_gaps (by decide +kernel), rfl, ⟨letter_ok (c! 'b') (by decide), rfl, trivial⟩, trivial⟩, rfl, trivial⟩,
      rfl, ⟨letter_ok (c! 'c') (by decide), rfl, trivial⟩, trivial⟩, rfl, trivial⟩

/-- What it is written as. -/
example : write sampleGaps = b! "- a\n\n > b\n >\n > c\n\n + d\n\n***\n\n: e\n\n f\n\n g\n\n***\n\n* a\n\n + b\n\n* c\n" := by
  decide +kernel

example : events (write sampleGaps) = .ok (docEvents sampleGaps) := by decide +kernel

/-- Which of its lists are tight. -/
example : sampleGaps.map (fun b => match b with | .list _ tight items => some (isTight tight items) | _ => none) = [some false, none, some false, none, some true] := by
  decide +kernel

/-! ## Tightness of lists -/

/-- **C54.** A list is reported as tight if and only if no blank line separates its items or blocks in them (other than in and before inner lists), given
that such a blank line, if there is one, is not only before the very last block. This is said of a document that consists of the list;
`C50_round_trip` says it of all lists in a document. -/
theorem C54_tightness_partial (lbs : List Label) (tight : Bool) (items : List (List Round.Blk)) (h : BlksOk [.list lbs tight items]) (hu : Utf8 (write [.list lbs tight items]))
    (es : List Event) (he : events (write [.list lbs tight items]) = .ok es) :
    es[1]? = some (.start (listOf lbs (!(itemGaps tight items).contains true)) []) := by
  rw [C50_round_trip _ h hu es he]
  rfl

/-- What follows a list does not make it loose: a list is tight or loose by its own items wherever it is in a document. -/
theorem C54_anywhere_partial (lbs : List Label) (tight : Bool) (items : List (List Round.Blk)) (pre post : List Round.Blk) (h : BlksOk (pre ++ .list lbs tight items :: post))
    (hu : Utf8 (write (pre ++ .list lbs tight items :: post))) (es : List Event) (he : events (write (pre ++ .list lbs tight items :: post)) = .ok es) :
    .start (listOf lbs (!(itemGaps tight items).contains true)) [] ∈ es := by
  rw [C50_round_trip _ h hu es he]
  have : ∀ pre : List Round.Blk, .start (listOf lbs (!(itemGaps tight items).contains true)) [] ∈ blkEvents (pre ++ .list lbs tight items :: post) false := by
    intro pre
    induction pre with
    | nil => exact List.mem_append_left _ (List.mem_cons_self ..)
    | cons b bs ih => exact List.mem_append_right _ ih
  exact List.mem_cons_of_mem _ (List.mem_append_left _ (this pre))

/-- The full claim of C54 is false: with a blank line only before the last block, the same list is tight at the end of a document and loose at the end of a block quote. -/
theorem C54_last_gap :
    events (b! "- a\n\n  b\n") = .ok [.start .document [], .start (.list (.unordered .dash) true) [], .start .listItem [], .start .paragraph [], .str (b! "a"), .end .paragraph, .blankline,
      .start .paragraph [], .str (b! "b"), .end .paragraph, .end .listItem, .end (.list (.unordered .dash) true), .end .document] ∧
    events (b! "> - a\n>\n>   b\n") = .ok [.start .document [], .start .blockquote [], .start (.list (.unordered .dash) false) [], .start .listItem [], .start .paragraph [], .str (b! "a"), .end .paragraph,
      .blankline, .start .paragraph [], .str (b! "b"), .end .paragraph, .end .listItem, .end (.list (.unordered .dash) false), .end .blockquote, .end .document] := by
  decide +kernel

end Jotdown
