import Verif.Proofs.Fence
import Verif.Proofs.Top
/-! # Property C42: fenced code blocks -/
namespace Jotdown.Block
open Jotdown

theorem exit_src {p p' : TP} {sp : Span} (h : p.exit sp = .ok p') : p'.src = p.src := by
  unfold TP.exit at h
  split at h
  · simp at h
  · obtain ⟨n, -, h⟩ := bind_ok h
    cases h; rfl

theorem exit_events {p p' : TP} {sp : Span} {n : Node} {i : Nat} {rest : List Nat} (h : p.exit sp = .ok p')
    (ho : p.open_ = i :: rest) (hn : ∃ s, p.events[i]? = some ⟨.enter n, s⟩) : p'.events = p.events ++ [⟨.exit n, sp⟩] := by
  obtain ⟨s, hs⟩ := hn
  unfold TP.exit at h
  rw [ho] at h
  simp only at h
  obtain ⟨n', hn', h⟩ := bind_ok h
  cases h
  simp [TP.enterNode, idx, hs, Bind.bind, Except.bind, pure, Except.pure] at hn'
  subst hn'
  rfl

theorem beforeBlock_src {p p' : TP} {b : Prepared} (h : p.beforeBlock b = .ok p') : p'.src = p.src := by
  unfold TP.beforeBlock at h
  obtain ⟨p1, h1, h⟩ := bind_ok h
  have e1 : p1.src = p.src := by
    unfold TP.maybeCloseList at h1
    split at h1
    · cases h1; rfl
    · obtain ⟨_, -, h1⟩ := bind_ok h1
      split at h1
      · obtain ⟨r, -, h1⟩ := bind_ok h1
        cases r with
        | some l => cases h1; rfl
        | none =>
          simp only [TP.closeList] at h1
          obtain ⟨e, -, h1⟩ := bind_ok h1
          split at h1
          · have := exit_src h1; exact this
          · simp at h1
      · cases h1; rfl
  rw [← e1]
  unfold TP.updateLoose at h
  split at h
  · cases h; rfl
  · obtain ⟨p2, h2, h⟩ := bind_ok h
    cases h
    unfold TP.looseAfterBlank at h2
    split at h2
    · split at h2
      · unfold TP.setLoose at h2
        obtain ⟨e, -, h2⟩ := bind_ok h2
        split at h2 <;> cases h2 <;> rfl
      · cases h2; rfl
    · cases h2; rfl

/-- **C42.** Wherever a code block starts: if the first of the lines `first :: rest` of a container
opens a code block (`OpensFence`), the block takes that line, the lines up to the first that closes the
fence, and that line if there is one; its events are its enter event, one inline event for each nonempty
line of its text, and its exit event. The text is that of the lines in between, each with the opening
indentation removed (`codeText`). Only list bookkeeping can precede (`before`). -/
theorem C42_code_block_extent (p p' : TP) (fuel : Nat) (top : Bool) (first : Span) (rest : List Span) (m : Nat)
    (c : UInt8) (indent n : Nat) (spec : Bytes) (hu : Utf8 p.src)
    (hb : ∀ l ∈ first :: rest, l.start ≤ l.stop ∧ l.stop ≤ p.src.length ∧
      isBoundary p.src l.start = true ∧ isBoundary p.src l.stop = true)
    (ho : OpensFence c indent n spec (textAt p.src first))
    (h : TP.parseBlock (fuel + 1) p (first :: rest) top = .ok (p', m)) :
    let k := (codeContent c n (rest.map (textAt p.src))).1
    let closed := (codeContent c n (rest.map (textAt p.src))).2
    m = k + 1 + (if closed then 1 else 0) ∧
    ∃ (before : List Event) (spans : List Span) (spanEnd : Span), p'.events = before ++
        (⟨.enter (.leaf (.codeBlock spec)), ⟨first.start + indent, first.stop⟩⟩ ::
          spans.map (fun s => (⟨.inline, s⟩ : Event))) ++ [⟨.exit (.leaf (.codeBlock spec)), spanEnd⟩] ∧
      spans.map (textAt p.src) = codeText indent spec ((rest.take k).map (textAt p.src)) ∧
      (p.openLists = [] → before = p.events) := by
  have hl : ∀ l ∈ first :: rest, SpanOk p.src l := fun l hm =>
    have ⟨a, b, c, d⟩ := hb l hm
    ⟨a, b, bd_of_isBoundary hu.bd c, bd_of_isBoundary hu.bd d⟩
  have htext : textAt = sliceOf := rfl
  rw [htext] at *
  obtain ⟨k, closed, hk⟩ : ∃ k closed, codeContent c n (rest.map (sliceOf p.src)) = (k, closed) := ⟨_, _, rfl⟩
  rw [hk]
  simp only
  obtain ⟨spanEnd, hprep⟩ := prepare_fence hu.safe hl ho hk
  rw [TP.parseBlock, hprep] at h
  obtain ⟨b, hb1, h⟩ := bind_ok h
  cases hb1
  obtain ⟨p1, hp1, h⟩ := bind_ok h
  obtain ⟨blk, hblk, h⟩ := bind_ok h
  simp only [mkBlock, Except.ok.injEq] at hblk
  subst hblk
  obtain ⟨p2, hp2, h⟩ := bind_ok h
  obtain ⟨p3, hp3, h⟩ := bind_ok h
  cases h
  refine ⟨rfl, ?_⟩
  have hev3 : p'.events = p2.events := by
    unfold TP.setAttrStart at hp3
    rw [if_neg (by simp)] at hp3
    cases hp3; rfl
  have hsrc : p1.src = p.src := beforeBlock_src hp1
  have hbef : p.openLists = [] → p1.events = p.events := by
    intro hnil
    obtain ⟨x, y, hxy⟩ := beforeBlock_nil p _ hnil
    rw [hxy] at hp1
    cases hp1; rfl
  rw [hev3]
  clear hev3 hp3 hp1 hprep
  simp only [TP.emit, TP.parseLeaf] at hp2
  obtain ⟨ls, hls, hp2⟩ := bind_ok hp2
  obtain ⟨p4, hp4, hp2⟩ := bind_ok hp2
  simp only [TP.leafSections] at hp4
  cases hp4
  have hlines : (∀ l ∈ ls, SpanOk p.src l) ∧ (ls.map (sliceOf p.src)).filter (fun l => !l.isEmpty) =
      codeText indent spec ((rest.take k).map (sliceOf p.src)) := by
    simp only [TP.leafLines] at hls
    obtain ⟨ls1, h1, h2, h3⟩ := mapLines_fence hu.safe (indent := indent) (ls := rest.take k)
      (fun l hm => hl l (by simp [List.mem_of_mem_take hm]))
    rw [hsrc, h1] at hls
    simp only [Bind.bind, Except.bind] at hls
    unfold codeText
    rw [← h3]
    simp only []
    split at hls
    · rename_i hq
      rw [if_pos hq]
      rw [← hsrc] at h2 ⊢
      obtain ⟨ls2, g1, g2, g3⟩ := trimLast_text h2
      rw [g1] at hls
      cases hls
      exact ⟨g2, by rw [g3]; rfl⟩
    · rename_i hq
      rw [if_neg hq]
      cases hls
      exact ⟨h2, rfl⟩
  refine ⟨p1.events, ls.filter (fun l => !l.isEmpty), spanEnd, ?_, ?_, hbef⟩
  · unfold TP.inlines at hp2
    rw [foldl_inline] at hp2
    have := exit_events (n := .leaf (.codeBlock spec)) (i := p1.events.length) (rest := p1.open_) hp2 rfl
      ⟨⟨first.start + indent, first.stop⟩, by simp [TP.enter]⟩
    rw [this]
    simp [TP.enter]
  · rw [map_filter_text hlines.1, hlines.2]

/-- The first line opens, a line with too few or other characters does not close, the indentation is
removed, and the block ends at the closing fence. -/
example : parse (b! "  ```` rs\n  a\n ```\n    b\n ~~~~\n ````` \nc") = .ok
    [⟨.enter (.container .document), ⟨0, 0⟩⟩, ⟨.enter (.leaf (.codeBlock (b! "rs"))), ⟨2, 10⟩⟩,
      ⟨.inline, ⟨12, 14⟩⟩, ⟨.inline, ⟨15, 19⟩⟩, ⟨.inline, ⟨21, 25⟩⟩, ⟨.inline, ⟨26, 31⟩⟩,
      ⟨.exit (.leaf (.codeBlock (b! "rs"))), ⟨31, 39⟩⟩,
      ⟨.enter (.leaf .paragraph), ⟨39, 39⟩⟩, ⟨.inline, ⟨39, 40⟩⟩, ⟨.exit (.leaf .paragraph), ⟨40, 40⟩⟩,
      ⟨.exit (.container .document), ⟨40, 40⟩⟩] := by decide +kernel

example : OpensFence (c! '`') 2 4 (b! "rs") (b! "  ```` rs\n") :=
  ⟨Or.inl rfl, by decide, ⟨b! "  ", b! " ", b! "\n", by decide, by decide, by decide, by decide, by decide, by decide⟩, by decide⟩

end Jotdown.Block
