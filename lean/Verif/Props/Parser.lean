import Verif.Proofs.ParseRun
import Verif.Props.Block
import Verif.Props.Html
/-! # C31–C35, C45, C46: the events of the parser; C12, C13 from source to HTML -/
namespace Jotdown
open Jotdown

theorem offset_ok {src : Bytes} (hu : Utf8 src) {evs : List (Event × Span)} (h : offsetEvents src = .ok evs) : DocOk src evs :=
  (offsetEvents_sat hu).of_ok h

theorem events_ok {src : Bytes} {es : List Event} (h : events src = .ok es) : ∃ evs, offsetEvents src = .ok evs ∧ es = evs.map (·.1) := by
  unfold events at h
  obtain ⟨evs, h1, h⟩ := bind_ok h
  simp only [Pure.pure, Except.pure, Except.ok.injEq] at h
  exact ⟨evs, h1, h.symm⟩

/-! ## Panics -/

/-- **C31.** Parsing a source and iterating over all its events, with ranges, finishes without panic, apart
from two checked conversions to 16 bits: of the level of a heading and of the depth of nested lists. The first
can fail only if the source contains 65536 `#`s in a row, the second only in sources of at least 16 KiB. Here a panic is any `unwrap`, `expect`, index,
slice, overflow or debug assertion that fails, and also the end of the fuel of a loop. -/
theorem C31_no_panic_partial (src : Bytes) (hu : Utf8 src) :
    (∃ evs, offsetEvents src = .ok evs) ∨ (offsetEvents src = .error .level ∧ ∃ u v, src = u ++ List.replicate 65536 (c! '#') ++ v) ∨
      (offsetEvents src = .error .depth ∧ 65536 ≤ 4 * src.length + 1) := by
  have := offsetEvents_sat hu
  cases h : offsetEvents src with
  | ok evs => exact .inl ⟨evs, rfl⟩
  | error e =>
    rw [h] at this
    rcases this with ⟨rfl, h'⟩ | ⟨rfl, h'⟩
    · exact .inr (.inl ⟨rfl, h'⟩)
    · exact .inr (.inr ⟨rfl, h'⟩)

/-- **C31.** No panic at all on sources of less than 16 KiB. -/
theorem C31_no_panic_short (src : Bytes) (hu : Utf8 src) (hlen : src.length < 16383) : ∃ evs, offsetEvents src = .ok evs := by
  rcases C31_no_panic_partial src hu with h | ⟨-, u, v, h⟩ | ⟨-, h⟩
  · exact h
  · rw [h] at hlen
    simp only [List.length_append, List.length_replicate] at hlen
    omega
  · omega

namespace Block

theorem lineLen_hashes (n : Nat) : lineLen (List.replicate n 35) = n := by
  induction n with
  | zero => rfl
  | succ n ih =>
    rw [List.replicate_succ, lineLen, if_neg (by decide), ih]
    try omega

theorem lines_hashes (n : Nat) : lines (List.replicate (n + 1) 35) = [⟨0, n + 1⟩] := by
  unfold lines
  rw [List.replicate_succ]
  unfold linesFrom
  rw [← List.replicate_succ, lineLen_hashes]
  simp [linesFrom]

theorem countWhile_hashes (n : Nat) : Lex.countWhile (· == 35) (List.replicate n 35) = n := by
  induction n with
  | zero => rfl
  | succ n ih => simp [List.replicate_succ, Lex.countWhile, ih]

theorem identify_hashes (n : Nat) : identify (List.replicate (n + 1) 35) = .ok (.heading (n + 1), ⟨0, n + 1⟩) := by
  unfold identify
  have h1 : (List.replicate (n + 1) (35 : UInt8)).dropWhile (fun c => isWs c && c != c! '\n') = List.replicate (n + 1) 35 := by
    rw [List.replicate_succ, List.dropWhile_cons_of_neg (by decide)]
  have h2 : (List.replicate n (35 : UInt8)).dropWhile (· == c! '#') = [] := by
    induction n with
    | zero => rfl
    | succ n ih => rw [List.replicate_succ, List.dropWhile_cons_of_pos (by decide)]; exact ih (by
        rw [List.replicate_succ, List.dropWhile_cons_of_neg (by decide)])
  simp only [h1, Nat.sub_self]
  rw [List.replicate_succ]
  simp only
  rw [← List.replicate_succ]
  unfold identMatch
  rw [if_neg (by decide), if_pos rfl, h2]
  simp only [noneOrWs, if_true, Bind.bind, Except.bind, Pure.pure, Except.pure, Option.getD_some, Nat.zero_add]
  rw [show (c! '#') = 35 from rfl, countWhile_hashes]

theorem parse_hashes (n : Nat) (h : 65536 ≤ n + 1) : parse (List.replicate (n + 1) 35) = .error .level := by
  have hp : prepare (List.replicate (n + 1) 35) ⟨0, n + 1⟩ [] = .ok ⟨.heading (n + 1), ⟨0, n + 1⟩, ⟨n + 1, n + 1⟩, n + 1, [⟨n + 1, n + 1⟩], 1⟩ := by
    have hs : strSlice (List.replicate (n + 1) 35) 0 (n + 1) = .ok (List.replicate (n + 1) 35) := by
      unfold strSlice
      simp [isBoundary]
    unfold prepare meteredBlock
    simp only [hs, Bind.bind, Except.bind, identify_hashes, measure, Pure.pure, Except.pure, Nat.zero_add, List.take_succ_cons, List.take_zero, trimTable, csub, Nat.add_zero, Nat.zero_le, if_true, Nat.sub_zero, skipOuter, mapTail, mapLines, skipFence, endSpan, List.getLast_singleton, List.length_singleton]
  unfold parse parseFuel
  simp only [lines_hashes]
  rw [show 6 * (List.replicate (n + 1) (35 : UInt8)).length + 4 = (6 * (n + 1) + 2) + 1 + 1 by simp]
  unfold TP.parseTop TP.parseBlock
  simp only [TP.enter, hp, Bind.bind, Except.bind]
  simp only [TP.beforeBlock, TP.maybeCloseList, TP.updateLoose, Bind.bind, Except.bind, mkBlock, TP.looseAfterBlank, Pure.pure, Except.pure]
  simp [show ¬ (n + 1 < 65536) by omega]

end Block

/-- **C31, finding.** The full claim is false: every source that consists of 65536 or more `#`s panics. -/
theorem C31_heading_panics (n : Nat) (h : 65536 ≤ n) : offsetEvents (List.replicate n (c! '#')) = .error .level := by
  obtain ⟨m, rfl⟩ : ∃ m, n = m + 1 := ⟨n - 1, by omega⟩
  unfold offsetEvents Parser.new
  rw [show (c! '#') = 35 from rfl, Block.parse_hashes m h]
  rfl

/-! ## Nesting -/

theorem DocOk.tree {src : Bytes} {evs : List (Event × Span)} (h : DocOk src evs) : DocumentTree (evs.map (·.1)) := by
  obtain ⟨rest, rfl, hr⟩ := h.ex
  obtain ⟨body, sp, rfl, hp⟩ := hr.tree
  exact ⟨body.map (·.1), by simp, hp⟩

/-- **C32, C45.** The events of every document form a tree: the first is the start of the document, the last its
end, each end matches the innermost open container with the same data, and each container and event stands
only where it belongs (see `mayHold` and `mayOccur`). -/
theorem C32_document_tree (src : Bytes) (hu : Utf8 src) (es : List Event) (h : events src = .ok es) : DocumentTree es := by
  obtain ⟨evs, h1, rfl⟩ := events_ok h
  exact (offset_ok hu h1).tree

theorem mayHold_nest {p c : Container} (h : mayHold p c = true) : c ≠ .document ∧ (isInline c || holdsBlocks p) = true := by
  refine ⟨?_, ?_⟩
  · rintro rfl
    cases p <;> cases h
  · cases hc : isInline c with
    | true => rfl
    | false =>
      cases p with
      | _ => first | rfl | (cases c <;> first | (cases h; done) | (cases hc; done))

theorem place1_nest {st st' : List Container} {e : Event} (hd : ∃ ds, st = ds ++ [.document] ∧ .document ∉ ds) (h : place1 st e = some st') :
    nest1 st e = some st' ∧ ∃ ds, st' = ds ++ [.document] ∧ .document ∉ ds := by
  obtain ⟨ds, rfl, hds⟩ := hd
  cases e with
  | start c a =>
    cases ds with
    | nil =>
      simp only [List.nil_append, place1] at h
      split at h
      · rename_i hm
        obtain ⟨h1, h2⟩ := mayHold_nest hm
        cases h
        refine ⟨by unfold nest1; simp only; rw [if_neg h1]; exact if_pos h2, [c], rfl, by simpa using Ne.symm h1⟩
      · cases h
    | cons d ds =>
      simp only [List.cons_append, place1] at h
      split at h
      · rename_i hm
        obtain ⟨h1, h2⟩ := mayHold_nest hm
        cases h
        refine ⟨by unfold nest1; simp only; rw [if_neg h1]; exact if_pos h2, c :: d :: ds, rfl, ?_⟩
        intro hx
        rcases List.mem_cons.1 hx with hx | hx
        · exact h1 hx.symm
        · exact hds hx
      · cases h
  | «end» c =>
    cases ds with
    | nil => cases h
    | cons d ds =>
      have hne : d ≠ .document := fun hx => hds (by simp [hx])
      have key : place1 (d :: ds ++ [.document]) (.end c) = if c = d then some (ds ++ [.document]) else none := by
        cases ds <;> rfl
      rw [key] at h
      split at h
      · rename_i hc
        subst hc
        cases h
        exact ⟨by simp [nest1, hne], ds, rfl, fun hx => hds (by simp [hx])⟩
      · cases h
  | thematicBreak a =>
    cases ds with
    | nil => cases h; exact ⟨rfl, [], rfl, hds⟩
    | cons d ds =>
      simp only [List.cons_append, place1] at h
      split at h
      · rename_i hm
        cases h
        refine ⟨?_, d :: ds, rfl, hds⟩
        have : holdsBlocks d = true := by
          cases d <;> first | rfl | (cases hm; done)
        simp [nest1, this]
      · cases h
  | _ =>
    cases ds with
    | nil =>
      simp only [List.nil_append, place1] at h
      split at h
      · cases h; exact ⟨rfl, [], rfl, hds⟩
      · cases h
    | cons d ds =>
      simp only [List.cons_append, place1] at h
      split at h
      · cases h; exact ⟨rfl, d :: ds, rfl, hds⟩
      · cases h

theorem place_nest : ∀ {es : List Event} {st st' : List Container}, (∃ ds, st = ds ++ [.document] ∧ .document ∉ ds) → place st es = some st' →
    nest st es = some st'
  | [], _, _, _, h => h
  | e :: es, st, st', hd, h => by
    simp only [place] at h
    split at h
    · cases h
    · rename_i st1 h1
      obtain ⟨h2, h3⟩ := place1_nest hd h1
      simp only [nest, h2]
      exact place_nest h3 h

/-- **C32.** The events form a well-nested document in the sense of `Spec/Events`, which is what the theorems about
the renderer are about. -/
theorem C32_document_events (src : Bytes) (hu : Utf8 src) (es : List Event) (h : events src = .ok es) : DocumentEvents es := by
  obtain ⟨body, rfl, hp⟩ := C32_document_tree src hu es h
  exact ⟨[], body, rfl, place_nest ⟨[], rfl, by simp⟩ hp⟩

example : (do
    let es ← events (b! "# a\n\n- *b _c_*\n\n  > `d`{.e}\n\n| f |\n|--|\n^ g")
    pure (es.length, place [.document] es.tail.dropLast)) = .ok (39, some [.document]) := by decide +kernel

/-! ## Texts and ranges -/

/-- **C33.** No `Str` event is empty. -/
theorem C33_no_empty_text (src : Bytes) (hu : Utf8 src) (es : List Event) (h : events src = .ok es) : .str [] ∉ es := by
  obtain ⟨evs, h1, rfl⟩ := events_ok h
  intro hm
  obtain ⟨⟨e, sp⟩, hx, he⟩ := List.mem_map.1 hm
  simp only at he
  subst he
  obtain ⟨rest, rfl, hr⟩ := (offset_ok hu h1).ex
  rcases List.mem_cons.1 hx with hx | hx
  · cases hx
  · have hg := hr.good _ hx
    have h2 := hg.ev
    simp only at h2
    have h3 := hg.span.len
    simp only at h3
    have : (Block.sliceOf src sp).length = 0 := by rw [← h2.1]; rfl
    unfold Block.sliceOf at this
    rw [List.length_take, List.length_drop] at this
    omega

/-- **C34.** The range of every event is a range of the source between character boundaries. -/
theorem C34_ranges_valid (src : Bytes) (hu : Utf8 src) (evs : List (Event × Span)) (h : offsetEvents src = .ok evs) :
    ∀ e ∈ evs, e.2.start ≤ e.2.stop ∧ e.2.stop ≤ src.length ∧ isBoundary src e.2.start = true ∧ isBoundary src e.2.stop = true := by
  intro e hm
  obtain ⟨rest, rfl, hr⟩ := (offset_ok hu h).ex
  have : Block.SpanOk src e.2 := by
    rcases List.mem_cons.1 hm with rfl | hm
    · exact .empty (Nat.zero_le _) (by simpa using hu.bd)
    · exact (hr.good _ hm).span
  exact ⟨this.le, this.len, isBoundary_of_bd (Nat.le_trans this.le this.len) this.bs, isBoundary_of_bd this.len this.be⟩

/-- **C35.** Apart from captions, the ranges of the events do not overlap and are in source order. -/
theorem C35_ranges_ordered (src : Bytes) (hu : Utf8 src) (evs : List (Event × Span)) (h : offsetEvents src = .ok evs) :
    Block.orderedFrom 0 (mainSpans false evs) := by
  obtain ⟨rest, rfl, hr⟩ := (offset_ok hu h).ex
  exact ⟨Nat.le_refl _, Nat.le_refl _, hr.ord⟩

/-- **C46.** Every text is the slice of the source at the range of its event. -/
theorem C46_text_is_source (src : Bytes) (hu : Utf8 src) (evs : List (Event × Span)) (h : offsetEvents src = .ok evs) :
    ∀ s sp, (.str s, sp) ∈ evs → strSlice src sp.start sp.stop = .ok s := by
  intro s sp hm
  obtain ⟨rest, rfl, hr⟩ := (offset_ok hu h).ex
  rcases List.mem_cons.1 hm with hm | hm
  · cases hm
  · have hg := hr.good _ hm
    have h2 := hg.ev
    simp only at h2
    rw [h2.1]
    exact hg.span.slice

/-- The texts with their ranges, for examples. -/
def texts (evs : List (Event × Span)) : List (Bytes × Span) :=
  evs.filterMap (fun e => match e.1 with
    | .str s => some (s, e.2)
    | _ => none)

example : (offsetEvents (b! "> a *b\n> c*\n\n```\nd\n```")).map (fun evs => (texts evs, (mainSpans false evs).map (fun s => (s.start, s.stop)))) =
    .ok ([(b! "a ", ⟨2, 4⟩), (b! "b", ⟨5, 6⟩), (b! "c", ⟨9, 10⟩), (b! "d\n", ⟨17, 19⟩)],
      [(0, 0), (0, 1), (2, 2), (2, 4), (4, 5), (5, 6), (6, 7), (9, 10), (10, 11), (12, 12), (12, 12), (12, 13), (13, 17), (17, 19), (19, 22), (22, 22)]) := by
  decide +kernel

/-! ## From source to HTML -/

/-- The start of raw HTML. -/
def isRawHtml : Event → Bool
  | .start (.rawBlock f) _ | .start (.rawInline f) _ => f == b! "html"
  | _ => false

theorem isName_safe {c : UInt8} (h : Attr.isName c = true) : isAlnum c = true ∨ c = c! '_' ∨ c = c! ':' ∨ c = c! '-' := by
  unfold Attr.isName at h
  simp only [Bool.or_eq_true, beq_iff_eq] at h
  rcases h with ((h | h) | h) | h
  · exact .inl h
  · exact .inr (.inr (.inl h))
  · exact .inr (.inl h)
  · exact .inr (.inr (.inr h))

theorem Good.safe {src : Bytes} {e : Event} {sp : Span} (h : Good src e sp) (hn : isRawHtml e = false) : Html.SafeEvent e := by
  have hk : ∀ {a : Attr.Attributes}, Attr.KeysOk a → Html.SafeAttrs a := by
    intro a ha e he k hk c hc
    exact isName_safe (List.all_eq_true.1 (ha e he k hk) c hc)
  have he := h.ev
  cases e with
  | start c a =>
    refine ⟨?_, hk he.1⟩
    cases c with
    | div cls =>
      have := he.2 cls rfl
      intro hm
      have := List.all_eq_true.1 this _ hm
      cases this
    | rawBlock f =>
      rintro rfl
      cases hn
    | rawInline f =>
      rintro rfl
      cases hn
    | _ => trivial
  | symbol s =>
    refine ⟨fun hm => ?_, fun hm => ?_⟩
    all_goals
      have := he _ hm
      cases this
  | thematicBreak a => exact hk he
  | _ => trivial

theorem events_safe {src : Bytes} (hu : Utf8 src) {es : List Event} (h : events src = .ok es) (hn : ∀ e ∈ es, isRawHtml e = false) : ∀ e ∈ es, Html.SafeEvent e := by
  obtain ⟨evs, h1, rfl⟩ := events_ok h
  intro e hm
  obtain ⟨⟨e', sp⟩, hx, rfl⟩ := List.mem_map.1 hm
  obtain ⟨rest, rfl, hr⟩ := (offset_ok hu h1).ex
  rcases List.mem_cons.1 hx with hx' | hx'
  · cases hx'; exact ⟨trivial, by intro e he; cases he⟩
  · exact (hr.good _ hx').safe (hn _ hm)

/-- **C12** from source to HTML: for every source whose events contain no raw HTML, rendering its events
succeeds and the tags of the output are balanced. -/
theorem C12_source_balanced (src : Bytes) (hu : Utf8 src) (es : List Event) (h : events src = .ok es) (hn : ∀ e ∈ es, isRawHtml e = false)
    (i : Option Html.Indentation) (hi : Html.SafeIndent i) : ∃ out, (Html.Renderer.new i).output es = .ok out ∧ Html.Balanced out :=
  Html.C12_balanced i hi es (C32_document_events src hu es h) (events_safe hu h hn)

/-- **C13** from source to HTML: replacing the texts of such a document by any others does not change the tags of
the output. -/
theorem C13_source_text_is_not_markup (src : Bytes) (hu : Utf8 src) (es : List Event) (h : events src = .ok es) (hn : ∀ e ∈ es, isRawHtml e = false)
    (i : Option Html.Indentation) (hi : Html.SafeIndent i) (es' : List Event) (he : es.map eraseText = es'.map eraseText) :
    ∃ out out' ts, (Html.Renderer.new i).output es = .ok out ∧ (Html.Renderer.new i).output es' = .ok out' ∧
      Html.tags out = some ts ∧ Html.tags out' = some ts :=
  Html.C13_text_is_not_markup i hi es es' (C32_document_events src hu es h) (events_safe hu h hn) he

/- A concrete case: text, attribute values and urls that try to be markup. -/
example : (do
    let es ← events (b! "- `<p>`{k=\"\\\"><p>\"} ![a *</li>*](<\">)[^n]\n\n[^n]: </ol>\n")
    let out ← Html.renderToString es
    pure (es.all (fun e => !isRawHtml e), ((Html.tags out).bind (Html.openAfterAll [])) == some [])) = .ok (true, true) := by decide +kernel

end Jotdown
