import Verif.Spec.RoundSec
import Verif.Proofs.RoundTop
/-! # Round trip: headings -/
namespace Jotdown.Round
open Jotdown Jotdown.Notation

/-! ## The lines of a heading -/

theorem splitNl_join (s : Bytes) : (splitNl s).flatten = s := by
  induction s with
  | nil => rfl
  | cons c s ih =>
    simp only [splitNl]
    split
    · simp [ih]
    · split <;> (rename_i hx; rw [hx] at ih; simp at ih; simp [← ih])

theorem dropWhile_hashes (n : Nat) {c : UInt8} (hc : c ≠ c! '#') (cs : Bytes) : (hashes n ++ c :: cs).dropWhile (· == c! '#') = c :: cs := by
  unfold hashes
  induction n with
  | zero => simp [hc]
  | succ n ih =>
    rw [List.replicate_succ]
    simpa using ih

theorem count_hashes (n : Nat) {c : UInt8} (hc : c ≠ c! '#') (cs : Bytes) : Lex.countWhile (· == c! '#') (hashes n ++ c :: cs) = n := by
  unfold hashes
  induction n with
  | zero => simp [Lex.countWhile, hc]
  | succ n ih =>
    rw [List.replicate_succ]
    simp [Lex.countWhile, hc, Nat.add_comm]

/-- A line of a heading. -/
theorem hash_ident {n : Nat} (hn : 1 ≤ n) (l : Bytes) : Block.identify (hashes n ++ c! ' ' :: l) = .ok (.heading n, ⟨0, n⟩) := by
  obtain ⟨m, rfl⟩ : ∃ m, n = m + 1 := ⟨n - 1, by omega⟩
  have e : hashes (m + 1) ++ c! ' ' :: l = c! '#' :: (hashes m ++ c! ' ' :: l) := by simp [hashes, List.replicate_succ]
  have hcount := count_hashes (m + 1) (c := c! ' ') (by decide) l
  rw [e] at hcount ⊢
  rw [identify_cons (.inl (by decide))]
  have : Block.identMatch 0 (c! '#' :: (hashes m ++ c! ' ' :: l)) (trimEnd (c! '#' :: (hashes m ++ c! ' ' :: l))) (c! '#') (hashes m ++ c! ' ' :: l) = .ok (some (.heading (m + 1), ⟨0, m + 1⟩)) := by
    unfold Block.identMatch
    rw [if_neg (by decide), if_pos rfl, dropWhile_hashes _ (by decide), hcount]
    simp [Block.noneOrWs]; decide
  rw [this]
  rfl

theorem heading_continues {n : Nat} (hn : 1 ≤ n) (l : Bytes) : (Block.Kind.heading n).continues (hashes n ++ c! ' ' :: l) = .ok (true, .heading n) := by
  simp [Block.Kind.continues, hash_ident hn, Bind.bind, Except.bind, pure, Except.pure]

theorem heading_stops {n : Nat} {r : Bool × Block.Kind} (h : (Block.Kind.heading n).continues [c! '\n'] = .ok r) : r = (false, .heading n) := by
  simp only [Block.Kind.continues] at h
  obtain ⟨x, h1, h2⟩ := bind_ok h
  have := newline_ident h1
  subst this
  cases h2
  simp

/-- The text of a line after the first one. -/
theorem headingLine_ok {src : Bytes} {n : Nat} (hn : 1 ≤ n) {sp : Span} (hsp : Block.SpanOk src sp) {l : Bytes} {c : UInt8} (hc : l.head? = some c) (hw : isWs c = false)
    (ht : textAt src sp = hashes n ++ c! ' ' :: l) : Block.headingLine src n sp = .ok ⟨sp.start + (n + 1), sp.stop⟩ := by
  unfold Block.headingLine
  have hlen := Block.sliceOf_length hsp
  have ht' : Block.sliceOf src sp = hashes n ++ c! ' ' :: l := ht
  have hbs : byteSlice src sp.start sp.stop = .ok (Block.sliceOf src sp) := by
    unfold byteSlice
    rw [if_pos ⟨hsp.le, hsp.len⟩]
    rfl
  rw [hbs, ht']
  rw [ht'] at hlen
  have e : (hashes n ++ c! ' ' :: l).dropWhile isWs = hashes n ++ c! ' ' :: l := by
    obtain ⟨m, rfl⟩ : ∃ m, n = m + 1 := ⟨n - 1, by omega⟩
    simp only [hashes, List.replicate_succ, List.cons_append]
    rw [List.dropWhile_cons_of_neg (by decide)]
  simp only [Bind.bind, Except.bind, e, count_hashes n (c := c! ' ') (by decide) l]
  have hd : (hashes n ++ c! ' ' :: l).drop n = c! ' ' :: l := by
    have : (hashes n).length = n := by simp [hashes]
    rw [List.drop_append_of_le_length (by omega), List.drop_of_length_le (by omega)]; rfl
  obtain ⟨l', rfl⟩ : ∃ l', l = c :: l' := by
    cases l with
    | nil => cases hc
    | cons d l' => simp at hc; subst hc; exact ⟨_, rfl⟩
  have hcw : Lex.countWhile isWs (c! ' ' :: c :: l') = 1 := by
    rw [Lex.countWhile, List.takeWhile_cons_of_pos (by decide), List.takeWhile_cons_of_neg (by simp [hw])]; rfl
  simp only [List.length_append, List.length_cons, hashes, List.length_replicate] at hlen
  rw [hd, hcw]
  simp [dassert, csub, Span.len, pure, Except.pure]
  rw [if_pos (by omega)]
  simp
  omega

theorem parseLeaf_sections {p p' : Block.TP} {leaf : Block.Leaf} {k : Block.Kind} {s e : Span} {ls : List Span}
    (h : p.parseLeaf leaf k s e ls = .ok p') :
    ∃ ls' q, p.leafLines leaf k ls = .ok ls' ∧ p.leafSections leaf k s.start = .ok q ∧ p' = app q (leafEvents leaf s e (ls'.filter (fun l => !l.isEmpty))) := by
  unfold Block.TP.parseLeaf at h
  obtain ⟨ls', h1, h2⟩ := bind_ok h
  obtain ⟨q, h3, h4⟩ := bind_ok h2
  refine ⟨ls', q, h1, h3, ?_⟩
  simp only [Block.TP.inlines, Block.foldl_inline] at h4
  have := exit_eq (n := .leaf leaf) (s := s) (i := q.events.length) (rest := q.open_) rfl ?_ h4
  · rw [this]
    simp [app, leafEvents, Block.TP.enter]
  · simp [Block.TP.enter]

theorem mapLines_heading {src : Bytes} {n : Nat} (hn : 1 ≤ n) {ls r : List Span} {L : List Bytes} (hL : ∀ l ∈ L, ∃ c, l.head? = some c ∧ isWs c = false)
    (hok : ∀ l ∈ ls, Block.SpanOk src l) (ht : ls.map (textAt src) = L.map (fun l => hashes n ++ c! ' ' :: l)) (h : Block.mapLines (Block.headingLine src n) ls = .ok r) :
    r = ls.map (fun sp => ⟨sp.start + (n + 1), sp.stop⟩) := by
  induction ls generalizing L r with
  | nil => cases h; rfl
  | cons sp ls ih =>
    cases L with
    | nil => cases ht
    | cons l L =>
      simp only [List.map_cons, List.cons.injEq] at ht
      obtain ⟨c, hc, hw⟩ := hL l (by simp)
      rw [Block.mapLines, headingLine_ok hn (hok sp (by simp)) hc hw ht.1] at h
      simp only [Bind.bind, Except.bind] at h
      cases hm : Block.mapLines (Block.headingLine src n) ls with
      | error e => rw [hm] at h; cases h
      | ok r' =>
        rw [hm] at h
        cases h
        rw [ih (fun l hl => hL l (List.mem_cons_of_mem _ hl)) (fun l hl => hok l (List.mem_cons_of_mem _ hl)) ht.2 hm]
        rfl

theorem text_heading {src : Bytes} {n : Nat} {ls : List Span} {L : List Bytes} (ht : ls.map (textAt src) = L.map (fun l => hashes n ++ c! ' ' :: l)) :
    (ls.map (fun sp => (⟨sp.start + (n + 1), sp.stop⟩ : Span))).map (textAt src) = L := by
  induction ls generalizing L with
  | nil => cases L with
    | nil => rfl
    | cons l L => cases ht
  | cons sp ls ih =>
    cases L with
    | nil => cases ht
    | cons l L =>
      simp only [List.map_cons, List.cons.injEq] at ht
      simp only [List.map_cons]
      rw [ih ht.2, textAt_drop, ht.1]
      have : (hashes n).length = n := by simp [hashes]
      rw [List.drop_append, List.drop_of_length_le (by omega), this]
      simp

theorem safe_hashes (n : Nat) {X : Bytes} (h : Safe (hashes n ++ X)) : Safe X := by
  unfold hashes at h
  induction n with
  | zero => simpa using h
  | succ n ih => rw [List.replicate_succ] at h; exact ih h.tail

/-- A span in a line. -/
theorem heading_span {src : Bytes} (hs : Safe src) {n : Nat} {sp : Span} (h : Block.SpanOk src sp) {l : Bytes} (ht : textAt src sp = hashes n ++ c! ' ' :: l) :
    Block.SpanOk src ⟨sp.start + (n + 1), sp.stop⟩ := by
  have hlen := Block.sliceOf_length h
  have ht' : Block.sliceOf src sp = hashes n ++ c! ' ' :: l := ht
  have hbs := Block.sliceOf_bd_safe h hs
  have hn : (hashes n).length = n := by simp [hashes]
  rw [ht'] at hlen hbs
  simp only [List.length_append, List.length_cons, hn] at hlen
  refine h.advance (n := n + 1) (by omega) ?_
  rw [ht']
  have e : (hashes n ++ c! ' ' :: l).drop (n + 1) = l := by
    rw [List.drop_append, List.drop_of_length_le (by omega), hn]; simp
  rw [e]
  exact (safe_hashes n hbs.2).1 (by decide)

/-- A heading is a leaf with the lines of its content. -/
theorem heading_ok {src : Bytes} (hs : Safe src) {p p' : Block.TP} {fuel m n : Nat} {top : Bool} {R : List Bytes} {ls : List Span} {is : List Inl} (hn : 1 ≤ n) (hn2 : n < 65536)
    (h : TitleOk is) (hp : p.src = src) (hok : ∀ l ∈ ls, Block.SpanOk src l) (hl : ls.map (textAt src) = titleLines n is ++ R)
    (hR : R = [] ∨ ∃ R', R = [c! '\n'] :: R') (hb : Block.TP.parseBlock fuel p ls top = .ok (p', m)) :
    m = (titleLines n is).length ∧ ∃ s e sps q, sps.map (textAt src) = splitNl (prints is) ∧
      (mark (settle p s.start) .block).leafSections (.heading n top (s.start % 4294967296)) (.heading n) s.start = .ok q ∧
      p' = bare (app q (leafEvents (.heading n top (s.start % 4294967296)) s e sps)) := by
  subst hp
  obtain ⟨A, z, hA1, hA2⟩ := title_lines h
  have hne : ∃ l L, splitNl (prints is ++ [c! '\n']) = l :: L := by
    rw [hA2]; cases A <;> simp
  obtain ⟨l, L, hL⟩ := hne
  have hheads := title_heads h
  have htl : titleLines n is = (hashes n ++ c! ' ' :: l) :: L.map (fun l => hashes n ++ c! ' ' :: l) := by
    unfold titleLines; rw [hL]; rfl
  rw [htl] at hl ⊢
  cases ls with
  | nil => simp at hl
  | cons first rest =>
    obtain ⟨f, b, -, hprep, hm, hparts⟩ := parseBlock_parts hb
    simp only [List.cons_append] at hl
    obtain ⟨g1, g2, g3, g4, ls', g5, g6⟩ := prepare_parts hs hok hl (k := .heading n) (k' := .heading n) (a := 0) (m := n)
      (fun r _ _ hr => by rw [hash_ident hn] at hr; cases hr; rfl)
      (Runs.all (by
        intro x hx r _ _ hr
        obtain ⟨y, -, rfl⟩ := List.mem_map.1 hx
        rw [heading_continues hn] at hr
        cases hr; rfl))
      (Stops_sep hR (fun r hr => heading_stops hr)).as
      (by simp) hprep
    obtain ⟨blk, p2, hmk, hemit, hp2⟩ := hparts (by rw [g1]; rfl) (by rw [g1]; simp)
    rw [g1] at hmk hemit
    simp only [Block.mkBlock, if_pos hn2, Except.ok.injEq] at hmk
    subst hmk
    simp only [reduceCtorEq, ↓reduceIte] at hemit
    simp only [Block.TP.emit, g1] at hemit
    obtain ⟨ls2, q, k1, k2, k3⟩ := parseLeaf_sections hemit
    simp only [Block.skipFence, Except.ok.injEq] at g6
    subst g6
    simp only [Block.skipOuter, Block.mapTail] at g5
    obtain ⟨r, m1, m2⟩ := bind_ok g5
    have hbl := (Except.ok.inj m2).symm
    rw [hbl] at k1
    have hsrc : (mark (settle p b.spanStart.start) .block).src = p.src := by rw [(mark_facts _ .block).1, (settle_src _ _).1]
    have hlen : L.length ≤ rest.length := by
      have := congrArg List.length hl
      simp at this; omega
    simp only [List.map_cons, List.cons.injEq] at hl
    obtain ⟨hl1, hl2⟩ := hl
    have hrest : (rest.take L.length).map (textAt p.src) = L.map (fun l => hashes n ++ c! ' ' :: l) := by
      rw [List.map_take, hl2, List.take_append_of_le_length (by simp), List.take_of_length_le (by simp)]
    rw [List.length_map] at m1 g4
    have hrok : ∀ x ∈ rest.take L.length, Block.SpanOk p.src x := fun x hx => hok x (List.mem_cons_of_mem _ (List.mem_of_mem_take hx))
    have hr := mapLines_heading hn (fun x hx => hheads x (by rw [hL]; exact List.mem_cons_of_mem _ hx)) hrok hrest m1
    have hfok := heading_span hs (hok first (by simp)) hl1
    have hall : ((first :: rest.take L.length).map (fun sp => (⟨sp.start + (n + 1), sp.stop⟩ : Span))).map (textAt p.src) = l :: L :=
      text_heading (L := l :: L) (by rw [List.map_cons, hl1, hrest]; rfl)
    have haok : ∀ x ∈ (first :: rest.take L.length).map (fun sp => (⟨sp.start + (n + 1), sp.stop⟩ : Span)), Block.SpanOk p.src x := by
      intro x hx
      obtain ⟨y, hy, rfl⟩ := List.mem_map.1 hx
      rcases List.mem_cons.1 hy with rfl | hy
      · exact hfok
      · have : textAt p.src y ∈ L.map (fun l => hashes n ++ c! ' ' :: l) := by rw [← hrest]; exact List.mem_map.2 ⟨y, hy, rfl⟩
        obtain ⟨w, -, hw⟩ := List.mem_map.1 this
        exact heading_span hs (hrok y hy) hw.symm
    have hah : ∀ x ∈ (first :: rest.take L.length).map (fun sp => (⟨sp.start + (n + 1), sp.stop⟩ : Span)), ∃ c, (textAt p.src x).head? = some c ∧ isWs c = false := by
      intro x hx
      refine hheads (textAt p.src x) ?_
      rw [hL, ← hall]
      exact List.mem_map.2 ⟨x, hx, rfl⟩
    generalize hX : (first :: rest.take L.length).map (fun sp => (⟨sp.start + (n + 1), sp.stop⟩ : Span)) = X at hall haok hah
    have htrim : Block.mapLines (mark (settle p b.spanStart.start) .block).trimStart (⟨first.start + n, first.stop⟩ :: r) = .ok X := by
      have e1 : (mark (settle p b.spanStart.start) .block).trimStart ⟨first.start + n, first.stop⟩ = .ok ⟨first.start + (n + 1), first.stop⟩ := by
        unfold Block.TP.trimStart
        have hslen : (hashes n).length = n := by simp [hashes]
        have hfn : Block.SpanOk p.src ⟨first.start + n, first.stop⟩ := by
          have hx : Block.sliceOf p.src first = hashes n ++ c! ' ' :: l := hl1
          have hsl := Block.sliceOf_length (hok first (by simp))
          rw [hx] at hsl
          simp only [List.length_append, List.length_cons, hslen] at hsl
          refine (hok first (by simp)).advance (n := n) (by omega) ?_
          rw [hx, List.drop_append_of_le_length (by omega), List.drop_of_length_le (by omega)]
          simp; decide
        have ht : Block.sliceOf p.src ⟨first.start + n, first.stop⟩ = c! ' ' :: l := by
          have := textAt_drop p.src first n
          rw [hl1, List.drop_append_of_le_length (by omega), List.drop_of_length_le (by omega)] at this
          exact this
        have hh := hheads l (by rw [hL]; simp)
        obtain ⟨c, hc, hw⟩ := hh
        have hlw : Block.leadingWs (c! ' ' :: l) = 1 := by
          cases l with
          | nil => cases hc
          | cons d l =>
            simp at hc; subst hc
            rw [Block.leadingWs, Lex.countWhile, List.takeWhile_cons_of_pos (by decide), List.takeWhile_cons_of_neg (by simp [hw])]; rfl
        rw [hsrc, hfn.slice, ht]
        simp only [Bind.bind, Except.bind, hlw]
        rfl
      rw [Block.mapLines, e1]
      simp only [Bind.bind, Except.bind]
      rw [hr]
      simp only [List.map_cons] at hX
      rw [mapLines_id _ (by
        rw [hsrc]
        intro x hx
        exact ⟨haok x (by rw [← hX]; exact List.mem_cons_of_mem _ hx), hah x (by rw [← hX]; exact List.mem_cons_of_mem _ hx)⟩)]
      exact congrArg Except.ok hX
    simp only [Block.TP.leafLines, htrim, Bind.bind, Except.bind, Block.TP.trimEndsOf] at k1
    have hse : Block.skipEmptyFirst X = X := by
      rw [← hX] at hah haok ⊢
      simp only [Block.skipEmptyFirst, List.map_cons]
      rw [if_neg]
      intro he
      obtain ⟨c, hc1, -⟩ := hah ⟨first.start + (n + 1), first.stop⟩ (by simp)
      have h1 := Block.sliceOf_length hfok
      simp [Span.isEmpty] at he
      have h2 : textAt p.src ⟨first.start + (n + 1), first.stop⟩ = Block.sliceOf p.src ⟨first.start + (n + 1), first.stop⟩ := rfl
      rw [h2] at hc1
      have h3 : (Block.sliceOf p.src ⟨first.start + (n + 1), first.stop⟩).length ≠ 0 := by
        intro h0
        rw [List.length_eq_zero_iff.1 h0] at hc1
        cases hc1
      simp only at h1
      omega
    rw [hse] at k1
    obtain ⟨ls3, n1, n2, n3⟩ := Block.trimLast_text (p := mark (settle p b.spanStart.start) .block) (ls := X) (by rw [hsrc]; exact haok)
    rw [n1] at k1
    cases k1
    rw [hsrc] at n2 n3
    have hfinal : ls2.map (textAt p.src) = splitNl (prints is) := by
      have e : X.map (Block.sliceOf p.src) = A ++ [z ++ [c! '\n']] := by rw [← hA2, hL]; exact hall
      have e2 : ls2.map (Block.sliceOf p.src) = A ++ [z] := by
        rw [n3, e, List.getLast?_append]
        simp only [List.getLast?_singleton, Option.some_or, List.dropLast_concat]
        rw [Block.trimEnd_append_ws (by simp; decide), Block.trimEnd_of_last]
        intro x hx
        have hz : (prints is).getLast? = some x := by
          have : (splitNl (prints is)).flatten = prints is := splitNl_join _
          rw [hA1] at this
          rw [← this]
          simp [hx]
        obtain ⟨_, _, _, _, c, hc1, hc2⟩ := h
        rw [hc1] at hz
        cases hz
        exact hc2
      rw [hA1]; exact e2
    refine ⟨by rw [hm, g4]; simp, b.spanStart, b.spanEnd, ls2, q, hfinal, k2, ?_⟩
    rw [filter_ne n2 hfinal (by
      intro x hx he
      subst he
      obtain ⟨c, hc1, -⟩ := h.2.2.2.1 [] hx
      simp at hc1)] at k3
    rw [hp2, k3]

end Jotdown.Round
