import Verif.Proofs.RoundItem
/-! # Round trip: tables -/
namespace Jotdown.Round
open Jotdown Jotdown.Notation

theorem tab_blank {bl : Bool} {r : Bool × Block.Kind} (h : (Block.Kind.table false bl).continues [c! '\n'] = .ok r) : r = (true, .table false true) := by
  have : (Block.Kind.table false bl).continues [c! '\n'] = .ok (true, .table false true) := by cases bl <;> decide
  rw [this] at h; cases h; rfl

theorem trim_flush {c : UInt8} (cs : Bytes) (h : isWs c = false) : ∃ t, trim (c :: cs) = c :: t := by
  unfold trim
  have h1 : trimStart (c :: cs) = c :: cs := by
    unfold trimStart
    rw [List.dropWhile_cons_of_neg (by simp [h])]
  rw [h1]
  obtain ⟨t, hall, e⟩ : ∃ t, (∀ x ∈ t, isWs x = true) ∧ trimEnd (c :: cs) ++ t = c :: cs := by
    refine ⟨((c :: cs).reverse.takeWhile isWs).reverse, ?_, ?_⟩
    · intro x hx
      rw [List.mem_reverse] at hx
      exact (List.all_eq_true.1 List.all_takeWhile) x hx
    · unfold trimEnd
      rw [← List.reverse_append, List.takeWhile_append_dropWhile, List.reverse_reverse]
  cases he : trimEnd (c :: cs) with
  | nil =>
    rw [he, List.nil_append] at e
    have := hall c (by rw [e]; simp)
    rw [this] at h; cases h
  | cons d t' =>
    rw [he, List.cons_append, List.cons.injEq] at e
    exact ⟨t', by rw [e.1]⟩

theorem tab_flush {l : Bytes} (hf : Flush l) {r : Bool × Block.Kind} (h : (Block.Kind.table false true).continues l = .ok r) : r = (false, .table false true) := by
  obtain ⟨c, cs, rfl, hw, hp⟩ := hf
  obtain ⟨t, ht⟩ := trim_flush cs hw
  have hp2 : (b! "^ ").isPrefixOf (trim (c :: cs)) = false := by
    cases hx : (b! "^ ").isPrefixOf (trim (c :: cs)) with
    | false => rfl
    | true =>
      exfalso
      rw [List.isPrefixOf_iff_prefix] at hx
      have hpre : trim (c :: cs) <+: c :: cs := by
        have h1 : trimStart (c :: cs) = c :: cs := by
          unfold trimStart
          rw [List.dropWhile_cons_of_neg (by simp [hw])]
        unfold trim
        rw [h1]
        unfold trimEnd
        refine ⟨((c :: cs).reverse.takeWhile isWs).reverse, ?_⟩
        rw [← List.reverse_append, List.takeWhile_append_dropWhile, List.reverse_reverse]
      have := hx.trans hpre
      rw [← List.isPrefixOf_iff_prefix, hp] at this
      cases this
  simp only [Block.Kind.continues, Bool.false_eq_true, ↓reduceIte, Block.tableContinues, Except.ok.injEq, hp2] at h
  rw [ht] at h
  simpa using h.symm

theorem TabLine.notBlank (l : TabLine) : Block.isBlank l.text = false := by
  rw [TabLine.text_eq]
  exact isBlank_head rfl (by decide)

section
variable {src : Bytes} (hs : Safe src)
include hs

theorem prepare_table {first : Span} {rest : List Span} (hok : ∀ l ∈ first :: rest, Block.SpanOk src l) {t : TabLine} {L : List TabLine} (ht : t.Ok) (hL : ∀ l ∈ L, l.Ok) {after : Bool} {R : List Bytes}
    (hl : (first :: rest).map (textAt src) = t.text :: (L.map TabLine.text ++ (blankLine after ++ R))) (hR : R = [] ∨ (after = true ∧ ∃ l R', R = l :: R' ∧ Flush l))
    {b : Block.Prepared} (h : Block.prepare src first rest = .ok b) :
    (∃ bl, b.kind = .table false bl) ∧ b.lineCount = L.length + 1 ∧ b.ls = first :: rest.take L.length := by
  simp only [List.map_cons, List.cons.injEq] at hl
  obtain ⟨hl1, hl2⟩ := hl
  have hf := hok first (by simp)
  have hlen : L.length ≤ rest.length := by
    have := congrArg List.length hl2
    simp at this; omega
  have htx : textAt src first = Block.sliceOf src first := rfl
  unfold Block.prepare Block.meteredBlock at h
  rw [hf.slice, ← htx, hl1] at h
  simp only [Bind.bind, Except.bind] at h
  cases hi : Block.identify t.text with
  | error e => rw [hi] at h; cases h
  | ok r =>
    have := TabLine.ident ht hi
    subst this
    rw [hi] at h
    simp only at h
    cases hm : Block.measure src (.table false false) rest with
    | error e => rw [hm] at h; cases h
    | ok q =>
      obtain ⟨k2, n⟩ := q
      rw [hm] at h
      simp only [pure, Except.pure, List.take_succ_cons] at h
      have hrun : Runs (.table false false) (L.map TabLine.text) (.table false false) := by
        refine Runs.all ?_
        intro x hx r _ _ hr
        obtain ⟨y, hy, rfl⟩ := List.mem_map.1 hx
        exact TabLine.continues (hL y hy) hr
      have key : ∃ bl, k2 = .table false bl ∧ Block.trimTable src k2 (first :: rest.take n) = .ok (first :: rest.take L.length) := by
        cases after with
        | false =>
          obtain rfl : R = [] := by
            rcases hR with h | ⟨h, -⟩
            · exact h
            · cases h
          obtain ⟨rfl, rfl⟩ := measure_runs hs (fun l hl => hok l (List.mem_cons_of_mem _ hl)) hl2 hrun (k3 := .table false false) (by rfl) hm
          exact ⟨false, rfl, by simp [Block.trimTable]⟩
        | true =>
          have hl3 : rest.map (textAt src) = (L.map TabLine.text ++ [[c! '\n']]) ++ R := by
            rw [hl2]; simp [blankLine]
          obtain ⟨rfl, rfl⟩ := measure_runs hs (fun l hl => hok l (List.mem_cons_of_mem _ hl)) hl3
            (Runs.append hrun ⟨_, fun r _ _ hr => tab_blank hr, rfl⟩) (k3 := .table false true) (by
              rcases hR with rfl | ⟨-, l, R', rfl, hf⟩
              · rfl
              · exact fun r _ _ hr => tab_flush hf hr) hm
          refine ⟨true, rfl, ?_⟩
          have hlt : L.length < rest.length := by
            have := congrArg List.length hl3
            simp at this; omega
          have hx : textAt src rest[L.length] = [c! '\n'] := by
            have := congrArg (fun z => z[L.length]?) hl3
            simp only [List.getElem?_map] at this
            rw [List.getElem?_eq_getElem hlt, List.append_assoc, List.getElem?_append_right (by simp)] at this
            simpa using this
          have htake : rest.take (L.length + 1) = rest.take L.length ++ [rest[L.length]] := by
            rw [List.take_add_one, List.getElem?_eq_getElem hlt]; rfl
          have hlastrow : ∃ y Y, first :: rest.take L.length = Y ++ [y] ∧ Block.isBlank (textAt src y) = false ∧ Block.SpanOk src y := by
            have hne : first :: rest.take L.length ≠ [] := by simp
            refine ⟨(first :: rest.take L.length).getLast hne, (first :: rest.take L.length).dropLast, (List.dropLast_concat_getLast hne).symm, ?_, ?_⟩
            · have hmem : ∀ z ∈ first :: rest.take L.length, Block.isBlank (textAt src z) = false := by
                intro z hz
                rcases List.mem_cons.1 hz with rfl | hz
                · rw [hl1]; exact TabLine.notBlank t
                · have : textAt src z ∈ (rest.take L.length).map (textAt src) := List.mem_map.2 ⟨z, hz, rfl⟩
                  rw [List.map_take, hl2, List.take_append_of_le_length (by simp), List.take_of_length_le (by simp)] at this
                  obtain ⟨w, -, e⟩ := List.mem_map.1 this
                  rw [← e]; exact TabLine.notBlank w
              exact hmem _ (List.getLast_mem hne)
            · have := List.getLast_mem hne
              refine hok _ ?_
              rcases List.mem_cons.1 this with e | e
              · rw [e]; simp
              · exact List.mem_cons_of_mem _ (List.mem_of_mem_take e)
          obtain ⟨y, Y, hY, hyb, hyok⟩ := hlastrow
          have hxok : Block.SpanOk src rest[L.length] := hok _ (List.mem_cons_of_mem _ (List.getElem_mem hlt))
          have hyt : Block.sliceOf src y = textAt src y := rfl
          have hxt : Block.sliceOf src rest[L.length] = textAt src rest[L.length] := rfl
          have hn : (L.map TabLine.text ++ [[c! '\n']]).length = L.length + 1 := by simp
          rw [hn, htake]
          have e1 : first :: (rest.take L.length ++ [rest[L.length]]) = (Y ++ [y]) ++ [rest[L.length]] := by rw [← hY]; rfl
          unfold Block.trimTable
          simp only
          rw [e1, List.reverse_append, List.reverse_append]
          simp only [List.reverse_cons, List.reverse_nil, List.nil_append, List.cons_append]
          rw [Block.trailingBlank, hxok.slice, hxt, hx]
          simp only [Bind.bind, Except.bind]
          rw [if_pos (by decide), Block.trailingBlank, hyok.slice, hyt]
          simp only [Bind.bind, Except.bind]
          rw [if_neg (by rw [hyb]; simp)]
          simp only [pure, Except.pure, csub]
          rw [if_pos (by simp)]
          simp only [Except.ok.injEq]
          rw [show (Y ++ [y] ++ [rest[L.length]]).length - (0 + 1) = (Y ++ [y]).length by simp, List.take_left, hY]
      obtain ⟨bl, rfl, htt⟩ := key
      rw [htt] at h
      simp only [Nat.zero_add] at h
      have hcsub : csub first.start first.start = .ok 0 := by simp [csub]
      rw [hcsub] at h
      simp only [Block.skipOuter, Block.skipFence, Nat.add_zero, Except.ok.injEq] at h
      subst h
      exact ⟨⟨bl, rfl⟩, by simp [Nat.min_eq_left hlen], rfl⟩

end

/-! ## Captions -/

theorem cap_trim {l : Bytes} {c : UInt8} (hc : l.head? = some c) (hw : isWs c = false) : ∃ Z, trim (b! "^ " ++ l) = b! "^ " ++ Z := by
  obtain ⟨l', rfl⟩ : ∃ l', l = c :: l' := by
    cases l with
    | nil => cases hc
    | cons d l' => simp at hc; subst hc; exact ⟨_, rfl⟩
  obtain ⟨Z, hZ⟩ := trimEnd_keep (b! "^ ") hw l'
  refine ⟨c :: Z, ?_⟩
  have e : trimStart (b! "^ " ++ c :: l') = b! "^ " ++ c :: l' := by
    unfold trimStart
    exact List.dropWhile_cons_of_neg (by decide)
  unfold trim
  rw [e, hZ]

theorem cap_continues {l : Bytes} {c : UInt8} (hc : l.head? = some c) (hw : isWs c = false) {r : Bool × Block.Kind} (h : (Block.Kind.table false false).continues (b! "^ " ++ l) = .ok r) :
    r = (true, .table true false) := by
  obtain ⟨Z, hZ⟩ := cap_trim hc hw
  simp only [Block.Kind.continues, Bool.false_eq_true, ↓reduceIte, Block.tableContinues, Except.ok.injEq, hZ] at h
  rw [← h]
  rfl

theorem cap_rest {l : Bytes} {c : UInt8} (hc : l.head? = some c) (hw : isWs c = false) {r : Bool × Block.Kind} (h : (Block.Kind.table true false).continues l = .ok r) : r = (true, .table true false) := by
  simp only [Block.Kind.continues, isBlank_head hc hw, ↓reduceIte, Except.ok.injEq] at h
  exact h.symm

section
variable {src : Bytes} (hs : Safe src)
include hs

theorem prepare_caption {first : Span} {rest : List Span} (hok : ∀ l ∈ first :: rest, Block.SpanOk src l) {t : TabLine} {L : List TabLine} (ht : t.Ok) (hL : ∀ l ∈ L, l.Ok) {after : Bool} {R : List Bytes}
    {cap : List Inl} (hcap : TitleOk cap) (hl : (first :: rest).map (textAt src) = t.text :: ((L.map TabLine.text ++ capLines cap) ++ (blankLine after ++ R))) (hR : R = [] ∨ (after = true ∧ ∃ l R', R = l :: R' ∧ Flush l))
    {b : Block.Prepared} (h : Block.prepare src first rest = .ok b) :
    (∃ c bl, b.kind = .table c bl) ∧ b.lineCount = (L.map TabLine.text ++ capLines cap).length + 1 ∧ b.ls = first :: rest.take (L.map TabLine.text ++ capLines cap).length := by
  obtain ⟨l, C, h1, h2⟩ := capLines_eq hcap
  have hh := title_heads hcap
  rw [h1] at hh
  obtain ⟨c, hc, hw⟩ := hh l (by simp)
  have hrun : Runs (.table false false) (L.map TabLine.text ++ capLines cap) (.table true false) := by
    refine Runs.append (k1 := .table false false) (Runs.all ?_) ?_
    · intro x hx r _ _ hr
      obtain ⟨y, hy, rfl⟩ := List.mem_map.1 hx
      exact TabLine.continues (hL y hy) hr
    · rw [h2]
      refine ⟨.table true false, fun r _ _ hr => cap_continues hc hw hr, Runs.all ?_⟩
      intro x hx r _ _ hr
      obtain ⟨d, hd, hdw⟩ := hh x (List.mem_cons_of_mem _ hx)
      exact cap_rest hd hdw hr
  have hst : StopsAs (.table true false) (blankLine after ++ R) (.table true false) := by
    cases after with
    | false =>
      obtain rfl : R = [] := by
        rcases hR with h | ⟨h, -⟩
        · exact h
        · cases h
      rfl
    | true =>
      intro r _ _ hr
      have : (Block.Kind.table true false).continues [c! '\n'] = .ok (false, .table true false) := by decide
      rw [this] at hr
      exact (Except.ok.inj hr).symm
  obtain ⟨g1, g2, g3, g4, ls', g5, g6⟩ := prepare_parts hs hok hl (k := .table false false) (a := 0) (m := 0) (fun r _ _ hr => TabLine.ident ht hr) hrun hst (by simp) h
  simp only [Block.skipOuter, Except.ok.injEq] at g5
  subst g5
  simp only [Block.skipFence, Except.ok.injEq] at g6
  refine ⟨⟨_, _, g1⟩, g4, ?_⟩
  rw [← g6]
  rfl

end

theorem TabLine.trim_cons (l : TabLine) : ∃ t, trim l.text = c! '|' :: t := by
  rw [TabLine.text_eq]
  exact trim_flush _ (by decide)

theorem takeWhile_self {α : Type} {f : α → Bool} {l : List α} (h : ∀ x ∈ l, f x = true) : l.takeWhile f = l := by
  induction l with
  | nil => rfl
  | cons a l ih => rw [List.takeWhile_cons_of_pos (h a (by simp)), ih (fun x hx => h x (by simp [hx]))]

/-- The last line of a title is trimmed. -/
theorem title_trim {src : Bytes} {p : Block.TP} (hp : p.src = src) {is : List Inl} (h : TitleOk is) {ls : List Span} (hok : ∀ l ∈ ls, Block.SpanOk src l)
    (ht : ls.map (textAt src) = splitNl (prints is ++ [c! '\n'])) : ∃ sps, p.trimLast ls = .ok sps ∧ sps.map (textAt src) = splitNl (prints is) := by
  subst hp
  obtain ⟨A, z, hA1, hA2⟩ := title_lines h
  obtain ⟨ls2, m1, m2, m3⟩ := Block.trimLast_text (p := p) (ls := ls) hok
  refine ⟨ls2, m1, ?_⟩
  have e : ls.map (Block.sliceOf p.src) = A ++ [z ++ [c! '\n']] := by rw [← hA2]; exact ht
  have e2 : ls2.map (Block.sliceOf p.src) = A ++ [z] := by
    rw [m3, e, List.getLast?_append]
    simp only [List.getLast?_singleton, Option.some_or, List.dropLast_concat]
    rw [Block.trimEnd_append_ws (by simp; decide), Block.trimEnd_of_last]
    intro x hx
    have hz : (prints is).getLast? = some x := by
      have hj : ∀ s, (splitNl s).flatten = s := by
        intro s
        induction s with
        | nil => rfl
        | cons c s ih =>
          simp only [splitNl]
          split
          · simp [ih]
          · split <;> (rename_i hx; rw [hx] at ih; simp at ih; simp [← ih])
      have := hj (prints is)
      rw [hA1] at this
      rw [← this]
      simp [hx]
    obtain ⟨_, _, _, _, c, hc1, hc2⟩ := h
    rw [hc1] at hz
    cases hz
    exact hc2
  rw [hA1]; exact e2

/-- The caption of a table is a leaf with the lines of its content. -/
theorem parseCaption_app {p p' : Block.TP} (hs : Safe p.src) {cap : List Inl} (hcap : TitleOk cap) {ls : List Span} (hok : ∀ l ∈ ls, Block.SpanOk p.src l)
    (ht : ls.map (textAt p.src) = capLines cap) {s e : Span} (h : p.parseCaption s e ls = .ok p') :
    ∃ sps, sps.map (textAt p.src) = splitNl (prints cap) ∧ p' = app p (leafEvents .caption s e sps) := by
  obtain ⟨l, C, h1, h2⟩ := capLines_eq hcap
  rw [h2] at ht
  cases ls with
  | nil => cases ht
  | cons first rest =>
    simp only [List.map_cons, List.cons.injEq] at ht
    obtain ⟨ht1, ht2⟩ := ht
    have hf := hok first (by simp)
    have hx : Block.sliceOf p.src first = c! '^' :: c! ' ' :: l := ht1
    have hlen := Block.sliceOf_length hf
    have hbs := Block.sliceOf_bd_safe hf hs
    rw [hx] at hlen hbs
    simp only [List.length_cons] at hlen
    have hfok : Block.SpanOk p.src ⟨first.start + 2, first.stop⟩ := by
      refine hf.advance (n := 2) (by omega) ?_
      rw [hx]
      exact hbs.2.tail.1 (by decide)
    have hft : textAt p.src ⟨first.start + 2, first.stop⟩ = l := by
      rw [textAt_drop]
      have : textAt p.src first = c! '^' :: c! ' ' :: l := hx
      rw [this]; rfl
    have e1 : (p.enter (.leaf .caption) s).trimStart first = .ok first := by
      unfold Block.TP.trimStart
      rw [show (p.enter (.leaf .caption) s).src = p.src from rfl, hf.slice, hx]
      rfl
    obtain ⟨sps, k1, k2⟩ := title_trim (p := p.enter (.leaf .caption) s) (src := p.src) rfl hcap (ls := ⟨first.start + 2, first.stop⟩ :: rest)
      (by
        intro x hx
        rcases List.mem_cons.1 hx with rfl | hx
        · exact hfok
        · exact hok x (List.mem_cons_of_mem _ hx))
      (by rw [h1, List.map_cons, hft, ht2])
    unfold Block.TP.parseCaption at h
    simp only [e1, k1, bind, Except.bind, Block.foldl_inline] at h
    refine ⟨sps, k2, ?_⟩
    have := exit_eq (n := .leaf .caption) (s := s) (i := p.events.length) (rest := p.open_) rfl ?_ h
    · rw [this]
      simp [app, leafEvents, Block.TP.enter]
    · simp [Block.TP.enter]

theorem notCaption_split {src : Bytes} {l m : List Span} (hl : ∀ x ∈ l, Block.startsCaption (textAt src x) = false) (hm : ∀ x, m.head? = some x → Block.startsCaption (textAt src x) = true) :
    (l ++ m).takeWhile (fun l => !Block.startsCaption (Block.textAt src l)) = l ∧ (l ++ m).dropWhile (fun l => !Block.startsCaption (Block.textAt src l)) = m := by
  induction l with
  | nil =>
    cases m with
    | nil => exact ⟨rfl, rfl⟩
    | cons x m =>
      have := hm x rfl
      rw [List.nil_append, List.takeWhile_cons_of_neg (by rw [blockText, this]; simp), List.dropWhile_cons_of_neg (by rw [blockText, this]; simp)]
      exact ⟨rfl, rfl⟩
  | cons a l ih =>
    have := hl a (by simp)
    rw [List.cons_append, List.takeWhile_cons_of_pos (by rw [blockText, this]; rfl), List.dropWhile_cons_of_pos (by rw [blockText, this]; rfl)]
    have := ih (fun x hx => hl x (by simp [hx]))
    exact ⟨by rw [this.1], this.2⟩

/-- The state after a table. -/
theorem parseTable_app {p p' : Block.TP} (hs : Safe p.src) {ls ms : List Span} {s e : Span} (hc : ∀ l ∈ ls, Block.startsCaption (textAt p.src l) = false) (hb : ∀ l ∈ ls, (trim (textAt p.src l)).isEmpty = false)
    {cap : List Inl} (hcap : cap = [] ∨ TitleOk cap) (hok : ∀ l ∈ ms, Block.SpanOk p.src l) (hms : ms.map (textAt p.src) = capLines cap)
    (h : p.parseTable (ls ++ ms) s e = .ok p') :
    ∃ C a, CapShows p.src cap C ∧ p' = al (app p (⟨.enter (.container .table), s⟩ :: ((C ++ Block.tableEvents p.src [] none (ls.map (Block.rowOf p.src))) ++ [⟨.exit (.container .table), e⟩]))) a := by
  unfold Block.TP.parseTable at h
  simp only [] at h
  obtain ⟨n, hn, h⟩ := bind_ok h
  obtain ⟨p1, hp1, h⟩ := bind_ok h
  replace h := bind_ok h
  obtain ⟨p2, hp2, h⟩ := h
  obtain ⟨hn1, hn2⟩ := Block.captionLine_eq hn
  have hd := notCaption_split (src := p.src) hc (m := ms) (by
    intro x hx
    rcases hcap with rfl | hcap
    · have : ms = [] := by simpa [capLines, splitNl, prints] using hms
      rw [this] at hx; cases hx
    · obtain ⟨l, L, -, e⟩ := capLines_eq hcap
      cases ms with
      | nil => cases hx
      | cons y ms =>
        cases hx
        rw [e, List.map_cons, List.cons.injEq] at hms
        rw [hms.1]
        rfl)
  have hn1' : (ls ++ ms).take n = ls := hn1.trans hd.1
  have hn2' : (ls ++ ms).drop n = ms := hn2.trans hd.2
  rw [hn2'] at hp1
  rw [hn1'] at hp2
  have key : ∃ C, CapShows p.src cap C ∧ p1 = app (Block.TP.enter { p with alignments := [] } (.container .table) s) C := by
    rcases hcap with rfl | hcap
    · have hm : ms = [] := by simpa [capLines, splitNl, prints] using hms
      subst hm
      simp only [Block.TP.parseCaption, Except.ok.injEq] at hp1
      exact ⟨[], .inl ⟨rfl, rfl⟩, by rw [← hp1]; simp [app]⟩
    · obtain ⟨sps, k1, k2⟩ := parseCaption_app (p := Block.TP.enter { p with alignments := [] } (.container .table) s) hs hcap hok hms hp1
      refine ⟨_, .inr ⟨?_, s, e, sps, rfl, k1⟩, k2⟩
      rintro rfl
      obtain ⟨_, _, _, _, c, hx, -⟩ := hcap
      cases hx
  obtain ⟨C, hC, rfl⟩ := key
  obtain ⟨als, hals⟩ := Block.parseRows_eq (E := p.events ++ ⟨.enter (.container .table), s⟩ :: C) (prev := none) (by simp [Block.TP.enter, Block.prevEvents]) rfl hp2
  have ht : ls.takeWhile (fun l => !(trim (Block.textAt p.src l)).isEmpty) = ls := by
    exact takeWhile_self (fun l hl => by rw [blockText, hb l hl]; rfl)
  have := Block.exit_top (n := .container .table) (i := p.events.length) (rest := p.open_) h (by rw [hals]; rfl) ⟨s, by rw [hals]; simp⟩
  refine ⟨C, (als, p.attrStart), hC, ?_⟩
  rw [this, hals]
  simp only [Block.TP.enter]
  simp only [app_src, ht]
  simp [al, app]

theorem cells_show {src : Bytes} {als : List Alignment} {cells : List (List Inl)} {cs : List Span} {i : Nat} (h : cs.map (fun c => textAt src (Block.trimRange src c)) = cells.map prints) :
    CellsShow src als i cells (Block.cellEvents src als i cs) := by
  induction cells generalizing cs i with
  | nil =>
    obtain rfl : cs = [] := by simpa using h
    rfl
  | cons c cells ih =>
    cases cs with
    | nil => simp at h
    | cons x cs =>
      simp only [List.map_cons, List.cons.injEq] at h
      exact ⟨_, _, _, _, rfl, h.1, ih h.2⟩

theorem row_shows {src : Bytes} {als : List Alignment} {head : Bool} {cells : List (List Inl)} {r : Block.TableRow} (h : r.cells.map (fun c => textAt src (Block.trimRange src c)) = cells.map prints) :
    RowShows src als head cells (Block.rowEvents src head als r) :=
  ⟨_, ⟨_, _, rfl⟩, cells_show h⟩

theorem tab_shows {src : Bytes} {ls : List TabLine} {sps : List Span} (hok : ∀ l ∈ ls, l.Ok) (hsp : ∀ s ∈ sps, Block.SpanOk src s) (h : sps.map (textAt src) = ls.map TabLine.text) (als : List Alignment) :
    TabShows src als ls (Block.tableEvents src als none (sps.map (Block.rowOf src))) ∧
    ∀ r head a, ∃ X, Block.tableEvents src als (some (r, head, a)) (sps.map (Block.rowOf src)) = Block.rowEvents src (head || (headAls ls).isSome) ((headAls ls).getD a) r ++ X ∧ TabShows src als ls X := by
  induction ls generalizing sps als with
  | nil =>
    obtain rfl : sps = [] := by simpa using h
    exact ⟨rfl, fun r head a => ⟨[], by simp [Block.tableEvents, headAls], rfl⟩⟩
  | cons l ls ih =>
    cases sps with
    | nil => simp at h
    | cons sp sps =>
      simp only [List.map_cons, List.cons.injEq] at h
      have hs := hsp sp (by simp)
      have ih' := fun als => ih (sps := sps) (fun x hx => hok x (by simp [hx])) (fun x hx => hsp x (by simp [hx])) h.2 als
      have hl := hok l (by simp)
      cases l with
      | sep a0 =>
        obtain ⟨e1, e2⟩ := TabLine.row_sep hl hs.le hs.len h.1
        refine ⟨?_, ?_⟩
        · simp only [List.map_cons, Block.tableEvents, e1, e2, ↓reduceIte, Option.map_none, TabShows]
          exact (ih' a0).1
        · intro r head a
          obtain ⟨X, e3, e4⟩ := (ih' a0).2 r true a0
          refine ⟨X, ?_, e4⟩
          simp only [List.map_cons, Block.tableEvents, e1, e2, ↓reduceIte, Option.map_some, e3]
          simp [headAls]
      | row cells =>
        obtain ⟨e1, e2⟩ := TabLine.row_cells hl hs.le hs.len h.1
        obtain ⟨X, e3, e4⟩ := (ih' als).2 (Block.rowOf src sp) false als
        have hrow : TabShows src als (.row cells :: ls) (Block.rowEvents src (false || (headAls ls).isSome) ((headAls ls).getD als) (Block.rowOf src sp) ++ X) :=
          ⟨_, X, rfl, by rw [Bool.false_or]; exact row_shows e2, e4⟩
        refine ⟨?_, ?_⟩
        · simp only [List.map_cons, Block.tableEvents, e1, Bool.false_eq_true, ↓reduceIte, List.nil_append]
          rw [e3]; exact hrow
        · intro r head a
          refine ⟨_, ?_, hrow⟩
          simp only [List.map_cons, Block.tableEvents, e1, Bool.false_eq_true, ↓reduceIte]
          rw [e3]
          simp [headAls]

theorem TabLine.notCaption (l : TabLine) : Block.startsCaption l.text = false := by
  rw [TabLine.text_eq]
  unfold Block.startsCaption
  rw [List.dropWhile_cons_of_neg (by decide)]
  rfl

section
variable {src : Bytes} (hs : Safe src) {p p' : Block.TP} {fuel n : Nat} {top : Bool} {R : List Bytes} {ls : List Span}
include hs

theorem table_ok {cap : List Inl} {L : List TabLine} (h : (Blk.table cap L).Ok) (hp : p.src = src) (hok : ∀ l ∈ ls, Block.SpanOk src l) {after : Bool}
    (hl : ls.map (textAt src) = (Blk.table cap L).lines ++ (blankLine after ++ R)) (hR : R = [] ∨ (after = true ∧ ∃ l R', R = l :: R' ∧ Flush l))
    (hc : Quiet p) (hb : Block.TP.parseBlock fuel p ls top = .ok (p', n)) :
    n = (Blk.table cap L).lines.length ∧ ∃ pos E a, Body src (.table cap L) after E ∧ p' = al (app (marks (settle p pos) ((Blk.table cap L).trace after)) E) (a, none) := by
  subst hp
  simp only [Blk.Ok] at h
  obtain ⟨⟨h1, h2⟩, hcap⟩ := h
  simp only [Blk.lines] at hl ⊢
  cases L with
  | nil => exact absurd rfl h1
  | cons t L =>
  cases ls with
  | nil => simp at hl
  | cons first rest =>
    obtain ⟨f, b, -, hprep, hn, hparts⟩ := parseBlock_parts hb
    have hpt : (∃ c bl, b.kind = .table c bl) ∧ b.lineCount = (L.map TabLine.text ++ capLines cap).length + 1 ∧ b.ls = first :: rest.take (L.map TabLine.text ++ capLines cap).length := by
      rcases hcap with rfl | hcap
      · have e0 : capLines [] = [] := rfl
        rw [e0] at hl ⊢
        obtain ⟨⟨bl, g1⟩, g2, g3⟩ := prepare_table hs hok (h2 t (by simp)) (fun l hl => h2 l (List.mem_cons_of_mem _ hl)) (by simpa using hl) hR hprep
        exact ⟨⟨_, bl, g1⟩, by simpa using g2, by simpa using g3⟩
      · exact prepare_caption hs hok (h2 t (by simp)) (fun l hl => h2 l (List.mem_cons_of_mem _ hl)) hcap (by simpa using hl) hR hprep
    obtain ⟨⟨c, bl, g1⟩, g2, g3⟩ := hpt
    obtain ⟨blk, p2, hmk, hemit, hp2⟩ := hparts (by rw [g1]; rfl) (by rw [g1]; simp)
    rw [g1] at hmk hemit
    simp only [Block.mkBlock, Except.ok.injEq] at hmk
    subst hmk
    simp only [reduceCtorEq, ↓reduceIte, Block.TP.emit] at hemit
    have hsrc : (mark (settle p b.spanStart.start) .block).src = p.src := by rw [(mark_facts _ .block).1, (settle_src _ _).1]
    have hbl : b.ls.map (textAt p.src) = (t :: L).map TabLine.text ++ capLines cap := by
      have h3 := hl
      simp only [List.map_cons, List.cons_append, List.cons.injEq] at h3
      rw [g3, List.map_cons, h3.1, List.map_take, h3.2, List.take_left]
      rfl
    have hbok : ∀ x ∈ b.ls, Block.SpanOk p.src x := by
      intro x hx
      rw [g3] at hx
      rcases List.mem_cons.1 hx with rfl | hx
      · exact hok _ (by simp)
      · exact hok x (List.mem_cons_of_mem _ (List.mem_of_mem_take hx))
    obtain ⟨rs, ms, hrm, hrs, hms⟩ := List.map_eq_append_iff.1 hbl
    rw [hrm] at hemit hbok
    have hmem : ∀ x ∈ rs, ∃ l : TabLine, textAt p.src x = l.text := by
      intro x hx
      have : textAt p.src x ∈ rs.map (textAt p.src) := List.mem_map.2 ⟨x, hx, rfl⟩
      rw [hrs] at this
      obtain ⟨l, -, e⟩ := List.mem_map.1 this
      exact ⟨l, e.symm⟩
    obtain ⟨C, a, hC, ha⟩ := parseTable_app (by rw [hsrc]; exact hs) (by
        intro x hx
        obtain ⟨l, e⟩ := hmem x hx
        rw [hsrc, e]; exact TabLine.notCaption l) (by
        intro x hx
        obtain ⟨l, e⟩ := hmem x hx
        obtain ⟨t', e2⟩ := TabLine.trim_cons l
        rw [hsrc, e, e2]; rfl) hcap (by rw [hsrc]; exact fun x hx => hbok x (List.mem_append_right _ hx)) (by rw [hsrc]; exact hms) hemit
    rw [hsrc] at ha hC
    refine ⟨by rw [hn, g2]; simp, b.spanStart.start, _, a.1, ⟨_, ⟨b.spanStart, b.spanEnd, rfl⟩, C, _, rfl, hC, (tab_shows h2 (fun x hx => hbok x (List.mem_append_left _ hx)) hrs []).1⟩, ?_⟩
    rw [hp2, ha]
    rfl

end

end Jotdown.Round
