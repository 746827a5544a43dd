import Verif.Proofs.DocSpell
import Verif.Props.Headings
/-! # C48: how the inline elements of a document are written -/
namespace Jotdown
open Jotdown

theorem inline_spelled {src : Bytes} (hu : Utf8 src) {evs : List (Event × Span)} (h : offsetEvents src = .ok evs) :
    ∃ p, Parser.new src = .ok p ∧ Spelled src (resolve p.prePass) evs := by
  obtain ⟨p, hp, hbl, hdoc⟩ := offsetEvents_doc hu h
  refine ⟨p, hp, ?_⟩
  obtain ⟨es, hes, hbt⟩ := ((Block.parse_shape hu).of_ok hbl).bt
  obtain ⟨⟨pre, ip⟩, hpre, hd, -⟩ := (prePass_sat hu.safe hu.bd hbt (e := ⟨.enter (.container .document), ⟨0, 0⟩⟩) rfl).exists_ok
  have hpp : p.prePass = pre := by
    unfold Parser.new at hp
    rw [hbl] at hp
    rw [hes] at hp
    simp only [Bind.bind, Except.bind, hpre, Pure.pure, Except.pure, Except.ok.injEq] at hp
    subst hp
    rfl
  rw [hes] at hdoc
  cases hdoc with
  | @enter _ _ _ c es evs hk hdoc =>
    obtain ⟨h1, h2⟩ := nodeName_cont (idAt p.prePass) false c
    refine .cons (spell_start h1 _ _) ?_
    simp only [leafAfter, h1, h2, Bool.false_eq_true, if_false]
    exact doc_spell hu.safe hu.bd (by rw [hpp]; exact hd) hdoc hbt
  | leaf hk => cases hk
  | _ => rename_i hk _; cases hk

/-- **C48.** In the events of every document, each inline element starts at its opening delimiter and ends at its closing delimiter
with the attributes written after it, and every other inline event covers exactly its notation. References mean the last
definition of their label, or a heading with this text. -/
theorem C48_inline_notation (src : Bytes) (hu : Utf8 src) (hlen : src.length ≤ 4294967296) (evs : List (Event × Span)) (h : offsetEvents src = .ok evs) :
    ∃ R, ResolvesIn (definitionsOf (evs.map (·.1))) (headingsOf (evs.map (·.1))) R ∧ Spelled src R evs := by
  obtain ⟨p, hp, hs⟩ := inline_spelled hu h
  have hev : events src = .ok (evs.map (·.1)) := by
    unfold events
    rw [h]
    rfl
  exact ⟨_, resolve_resolvesIn hu hlen hev hp, hs⟩

/-- The events of a document with a link, an attribute and quotes. -/
example : (do
    let evs ← offsetEvents (b! "_a [b](c){.k}_ 'd' ...\n")
    pure (evs.map (fun e : Event × Span => (e.2.start, e.2.stop)))) =
    .ok [(0, 0), (0, 0), (0, 1), (1, 3), (3, 4), (4, 5), (5, 13), (13, 14), (14, 15), (15, 16), (16, 17), (17, 18), (18, 19), (19, 22), (23, 23), (23, 23)] := by
  decide +kernel

/-- The text of attributes in a destination on several lines is repeated, which is why `Notation.Target` excludes braces. -/
theorem C48_destination_repeats : (do
    let evs ← events (b! "[t](u{.a}\nv)\n")
    pure (evs[2]?)) = .ok (some (.start (.link (b! "u{.a}{.a}v") (.span .inline)) [])) ∧
    (do
    let evs ← events (b! "[t](u{.a}v)\n")
    pure (evs[2]?)) = .ok (some (.start (.link (b! "u{.a}v") (.span .inline)) [])) := by
  constructor <;> decide +kernel

/-- A label that is left out is the text of the link: a line break counts as a space, an escape is left out, a dash stays as it is
written. -/
example : (do
    let evs ← events (b! "[a--\n_b_ \\*][]\n\n[a-- b *]: c\n")
    pure (evs[2]?)) = .ok (some (.start (.link (b! "c") (.span .reference)) [])) := by decide +kernel

/-- The hypotheses are met: what C48 says about this document. -/
example : ∃ R, R (b! "b") = (b! "c", .reference, [(.cls, b! "k")]) ∧
    ∃ evs, offsetEvents (b! "_a [b][]_\n\n{.k}\n[b]: c\n") = .ok evs ∧ Spelled (b! "_a [b][]_\n\n{.k}\n[b]: c\n") R evs := by
  have hu : Utf8 (b! "_a [b][]_\n\n{.k}\n[b]: c\n") := ⟨"_a [b][]_\n\n{.k}\n[b]: c\n".toList, by decide +kernel⟩
  obtain ⟨evs, h⟩ : ∃ evs, offsetEvents (b! "_a [b][]_\n\n{.k}\n[b]: c\n") = .ok evs := by
    generalize hx : offsetEvents (b! "_a [b][]_\n\n{.k}\n[b]: c\n") = x
    cases x with
    | ok evs => exact ⟨evs, rfl⟩
    | error e =>
      have : (offsetEvents (b! "_a [b][]_\n\n{.k}\n[b]: c\n")).isOk = true := by decide +kernel
      rw [hx] at this
      cases this
  obtain ⟨R, hR, hs⟩ := C48_inline_notation _ hu (by decide +kernel) evs h
  refine ⟨R, ?_, evs, h, hs⟩
  have : (do let evs ← offsetEvents (b! "_a [b][]_\n\n{.k}\n[b]: c\n"); pure (lastDefinition (definitionsOf (evs.map (fun e : Event × Span => e.1))) (b! "b"))) =
      .ok (some (b! "c", [(.cls, b! "k")])) := by decide +kernel
  rw [h] at this
  simp only [Bind.bind, Except.bind, Pure.pure, Except.pure, Except.ok.injEq] at this
  exact (hR (b! "b")).1 _ _ this

end Jotdown
