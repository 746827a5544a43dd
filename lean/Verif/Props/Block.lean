import Verif.Proofs.Shape
/-! # Properties C29, C30, C31 (blocks), C34/C35 (blocks), C43, C45 -/
namespace Jotdown.Block
open Jotdown

theorem fits_doc : CxFits .top .document := Or.inl rfl

/-- **C29, C45.** The block events of a document form a tree: they start with the entry of the document and
end with its exit, and in between every node that is entered is exited by a matching exit in nested
order. List items, description terms, table rows, cells, captions and sections stand only directly
inside lists, lists, tables, rows, tables, and sections or the document, and lists and tables contain
nothing else; inline content stands only in leaves, which contain nothing else (see `nested`,
`mayContain`). -/
theorem C29_block_events_form_a_tree (src : Bytes) (hu : Utf8 src) (evs : List Event) (h : parse src = .ok evs) :
    ∃ body, evs = ⟨.enter (.container .document), ⟨0, 0⟩⟩ :: body ++ [⟨.exit (.container .document), ⟨src.length, src.length⟩⟩] ∧
      nested [.container .document] (body ++ [⟨.exit (.container .document), ⟨src.length, src.length⟩⟩]) = true := by
  obtain ⟨F, S, m, u, he, hF, hS⟩ := ((parse_shape hu).of_ok h).ev
  refine ⟨F ++ S, by rw [he]; simp, ?_⟩
  rw [List.append_assoc, nested_forest hF fits_doc, nested_sections hS fits_doc, nested_exit rfl]
  rfl

example : (do
    let evs ← parse (b! "# a\n\n- b\n\n  > c\n\n| d |")
    pure (evs.length, nested [.container .document] evs.tail)) = .ok (29, true) := by decide +kernel

/-- **C30.** Block parsing terminates: the model never runs out of fuel. -/
theorem C30_terminates (src : Bytes) (hu : Utf8 src) : parse src ≠ .error .fuel := by
  intro h
  have := parse_shape hu
  rw [h] at this
  rcases this with ⟨h, -⟩ | ⟨h, -⟩ <;> simp at h

theorem firstLine_end (s : Bytes) : Syntax.firstLine s = s ∨ (Syntax.firstLine s).getLast? = some (c! '\n') := by
  induction s with
  | nil => exact Or.inl rfl
  | cons c s ih =>
    rw [Syntax.firstLine]
    split
    · rename_i h; right; rw [h]; rfl
    · rcases ih with h | h
      · left; rw [h]
      · right; rw [List.getLast?_cons, h]; rfl

theorem Full.nlStop {src : Bytes} {l : Span} (h : SpanOk src l) (hf : Full src l) : NlStop src l.stop := by
  have hle := h.le
  have hlen := h.len
  have hsl := sliceOf_length h
  rcases firstLine_end (src.drop l.start) with h1 | h1
  · left
    unfold Full at hf
    rw [h1] at hf
    rw [hf, List.length_drop] at hsl
    omega
  · right
    unfold Full at hf
    rw [← hf] at h1
    have hpos : 0 < (sliceOf src l).length := by
      cases hs : sliceOf src l with
      | nil => rw [hs] at h1; simp at h1
      | cons => simp
    refine ⟨by omega, ?_⟩
    rw [List.getLast?_eq_getElem?, hsl] at h1
    unfold sliceOf at h1
    rw [List.getElem?_take_of_lt (by omega), List.getElem?_drop] at h1
    rw [← h1]
    congr 1; omega

/-- **C30.** Each block takes at least one and at most all of the remaining lines: for every list of
lines (character-aligned ranges of the source in ascending order, each the whole rest of a line), the block that starts in the first
line is identified without panic and takes between one and all of them. -/
theorem C30_block_consumes_lines (src : Bytes) (hu : Utf8 src) (first : Span) (rest : List Span)
    (hord : orderedFrom 0 (first :: rest))
    (hb : ∀ l ∈ first :: rest, l.stop ≤ src.length ∧ isBoundary src l.start = true ∧ isBoundary src l.stop = true ∧
      (src.drop l.start).take (l.stop - l.start) = Syntax.firstLine (src.drop l.start)) :
    ∃ b, prepare src first rest = .ok b ∧ 1 ≤ b.lineCount ∧ b.lineCount ≤ (first :: rest).length := by
  have hl : ∀ (ls : List Span) (lo : Nat), orderedFrom lo ls →
      (∀ l ∈ ls, l.stop ≤ src.length ∧ isBoundary src l.start = true ∧ isBoundary src l.stop = true ∧
        (src.drop l.start).take (l.stop - l.start) = Syntax.firstLine (src.drop l.start)) →
      ∃ hi, LinesOk src lo ls hi := by
    intro ls
    induction ls with
    | nil => intro lo _ _; exact ⟨lo, .nil (Nat.le_refl _)⟩
    | cons l ls ih =>
      intro lo ho hb
      obtain ⟨hi, h⟩ := ih l.stop ho.2.2 (fun m hm => hb m (by simp [hm]))
      obtain ⟨b1, b2, b3, b4⟩ := hb l (by simp)
      have hok : SpanOk src l := ⟨ho.2.1, b1, bd_of_isBoundary hu.bd b2, bd_of_isBoundary hu.bd b3⟩
      exact ⟨hi, .cons hok ho.1 (Full.nlStop hok b4) h⟩
  obtain ⟨hi, h⟩ := hl _ 0 hord hb
  obtain ⟨b, hb1, hb2⟩ := (prepare_ok hu.safe h (fun l hl => (hb l hl).2.2.2)).exists_ok
  exact ⟨b, hb1, hb2.cnt, hb2.cntLe⟩

example : (prepare (b! "> a\n> b\nc\n\nd") ⟨0, 4⟩ [⟨4, 8⟩, ⟨8, 10⟩, ⟨10, 11⟩, ⟨11, 12⟩]).map (·.lineCount) = .ok 3 := by decide +kernel

/-- **C31**, blocks: the only panics of the block parser are the checked conversions of the level of a
heading with at least 65536 `#`s, which must then occur in the source, and of the depth of lists nested
at least 65536 deep, and the source must be long enough for that. -/
theorem C31_block_panics (src : Bytes) (hu : Utf8 src) (e : Panic) (h : parse src = .error e) :
    (e = .level ∧ ∃ u v, src = u ++ List.replicate 65536 (c! '#') ++ v) ∨ (e = .depth ∧ 65536 ≤ 4 * src.length + 1) := by
  have := parse_shape hu
  rw [h] at this
  exact this

/-- **C31**, blocks: no panic on sources of less than 16 KiB. -/
theorem C31_block_no_panic_short (src : Bytes) (hu : Utf8 src) (hlen : src.length < 16383) : ∃ evs, parse src = .ok evs := by
  cases h : parse src with
  | ok evs => exact ⟨evs, rfl⟩
  | error e =>
    rcases C31_block_panics src hu e h with ⟨-, u, v, h⟩ | ⟨-, h⟩
    · rw [h] at hlen
      simp only [List.length_append, List.length_replicate] at hlen
      omega
    · omega

/-- **C43.** Sections nest by heading level (see `secWalk`). -/
theorem C43_sections_nest_by_level (src : Bytes) (hu : Utf8 src) (evs : List Event) (h : parse src = .ok evs) :
    ∃ body, evs = ⟨.enter (.container .document), ⟨0, 0⟩⟩ :: body ++ [⟨.exit (.container .document), ⟨src.length, src.length⟩⟩] ∧
      secWalk [] .content 0 body = true := by
  obtain ⟨F, S, m, u, he, hF, hS⟩ := ((parse_shape hu).of_ok h).ev
  refine ⟨F ++ S, by rw [he]; simp, ?_⟩
  have := walk_sections hS [] (by simp) (s := .content) (Or.inl ⟨rfl, rfl⟩) [] true (by
    intro s' hs'
    rw [secWalk.eq_def]; rcases hs' with ⟨rfl, -⟩ | rfl <;> rfl)
  rw [List.append_nil] at this
  rw [walk_forest hF [] (fun _ => rfl) S]
  exact this

/-- The levels of the sections and headings in order, for examples. -/
def headings (evs : List Event) : List (Nat × Bool) :=
  evs.filterMap (fun e => match e.kind with
    | .enter (.leaf (.heading n hs _)) => some (n, hs)
    | _ => none)

example : (parse (b! "### a\n\n# b\n\n> # q\n\n### c\n\n## d")).map headings = .ok [(3, true), (1, true), (1, false), (3, true), (2, true)] := by
  decide +kernel

/-- **C34**, blocks: every span of a visible block event is a range of the source between character boundaries. -/
theorem C34_block_spans_valid (src : Bytes) (hu : Utf8 src) (evs : List Event) (h : parse src = .ok evs) :
    ∀ e ∈ evs, e.kind ≠ .stale → e.span.start ≤ e.span.stop ∧ e.span.stop ≤ src.length ∧
      isBoundary src e.span.start = true ∧ isBoundary src e.span.stop = true := by
  obtain ⟨F, S, m, u, he, hF, hS⟩ := ((parse_shape hu).of_ok h).ev
  have hall : SpansOk src evs := by
    rw [he, List.cons_append]
    exact .cons (.empty (Nat.zero_le _) (by simpa using hu.bd)) ((hF.spans.append hS.spans).append (.cons (.empty (Nat.le_refl _) (by simp)) .nil))
  intro e hm hk
  have := hall e hm hk
  exact ⟨this.le, this.len, isBoundary_of_bd (Nat.le_trans this.le this.len) this.bs, isBoundary_of_bd this.len this.be⟩

/-- **C35**, blocks: apart from captions, the spans of the visible block events do not overlap and are
in source order. -/
theorem C35_block_spans_ordered (src : Bytes) (hu : Utf8 src) (evs : List Event) (h : parse src = .ok evs) :
    orderedFrom 0 ((mainEvents false evs).map (·.span)) := by
  obtain ⟨F, S, m, u, he, hF, hS⟩ := ((parse_shape hu).of_ok h).ev
  rw [he, List.cons_append, List.cons_append, List.append_assoc]
  refine ord_cons rfl (Nat.le_refl _) (Nat.le_refl _) (ord_forest hF (ord_sections hS ?_))
  exact ord_cons rfl (Nat.le_refl _) (Nat.le_refl _) trivial

example : (parse (b! "{a=b}\n- x\n\n^ c")).map (fun evs => (mainEvents false evs).map (·.span)) = .ok
    [⟨0, 0⟩, ⟨0, 6⟩, ⟨6, 6⟩, ⟨6, 7⟩, ⟨8, 8⟩, ⟨8, 9⟩, ⟨10, 10⟩, ⟨10, 11⟩, ⟨11, 11⟩, ⟨11, 11⟩, ⟨11, 11⟩, ⟨11, 14⟩, ⟨14, 14⟩, ⟨14, 14⟩] := by decide +kernel

end Jotdown.Block
