import Verif.Proofs.RoundPrep
import Verif.Proofs.RoundDiv
/-! # Round trip: block events of written documents -/
namespace Jotdown.Round
open Jotdown Jotdown.Notation

/-! ## The block events of a document -/

/-- A container around block events. -/
def Around (c : Block.Container) (E' E : List Block.Event) : Prop :=
  ∃ s e : Span, E = ⟨.enter (.container c), s⟩ :: (E' ++ [⟨.exit (.container c), e⟩])

/-- A blank line. -/
def BlankShows (after : Bool) (E : List Block.Event) : Prop :=
  if after then ∃ s : Span, E = [⟨.atom .blankline, s⟩] else E = []

def Label.itemKind : Label → Block.ListItemKind
  | .bullet _ | .ordered .. => .list
  | .task _ checked => .task checked
  | .desc => .description

def listTy : List Label → Block.ListType
  | lb :: _ => lb.ty
  | [] => .unordered (c! '-')

/-- The block events of cells from column `i` on. -/
def CellsShow (src : Bytes) (als : List Alignment) : Nat → List (List Inl) → List Block.Event → Prop
  | _, [], E => E = []
  | i, c :: cs, E => ∃ s e sp E', E = leafEvents (.tableCell ((als[i]?).getD .unspecified)) s e [sp] ++ E' ∧ textAt src sp = prints c ∧ CellsShow src als (i + 1) cs E'

/-- The block events of a row. -/
def RowShows (src : Bytes) (als : List Alignment) (head : Bool) (cells : List (List Inl)) (E : List Block.Event) : Prop :=
  ∃ E', Around (.tableRow head) E' E ∧ CellsShow src als 0 cells E'

/-- The block events of the lines of a table. -/
def TabShows (src : Bytes) : List Alignment → List TabLine → List Block.Event → Prop
  | _, [], E => E = []
  | _, .sep a :: ls, E => TabShows src a ls E
  | als, .row cells :: ls, E => ∃ E1 E2, E = E1 ++ E2 ∧ RowShows src ((headAls ls).getD als) (headAls ls).isSome cells E1 ∧ TabShows src als ls E2

/-- The block events of the caption of a table. -/
def CapShows (src : Bytes) (cap : List Inl) (C : List Block.Event) : Prop :=
  (cap = [] ∧ C = []) ∨ (cap ≠ [] ∧ ∃ s e sps, C = leafEvents .caption s e sps ∧ sps.map (textAt src) = splitNl (prints cap))

/-- The block events of the term of an item of a description list. -/
def TermShows (src : Bytes) : List Blk → Bool → List Block.Event → Prop
  | .para is :: bs, after, T => ∃ s e sps E2, T = leafEvents .descriptionTerm s e sps ++ E2 ∧ sps.map (textAt src) = splitNl (prints is) ∧ BlankShows (!bs.isEmpty || after) E2
  | _, _, _ => False

mutual
/-- The block events of a block; a blank line after a list is part of it. -/
def Body (src : Bytes) : Blk → Bool → List Block.Event → Prop
  | .para is, _, E => ∃ s e sps, E = leafEvents .paragraph s e sps ∧ sps.map (textAt src) = splitNl (prints is)
  | .brk, _, E => ∃ s : Span, E = [⟨.atom .thematicBreak, s⟩]
  | .code _ lang ls, _, E => ∃ s e sps, E = leafEvents (.codeBlock lang) s e sps ∧ sps.map (textAt src) = codeTexts lang ls
  | .quote bs, _, E => ∃ E', Around .blockquote E' E ∧ ShowsL src bs false E'
  | .div _ cls bs, _, E => ∃ E', Around (.div cls) E' E ∧ ShowsL src bs false E'
  | .list lbs tight items, after, E => ∃ E', Around (.list (listTy lbs) (isTight tight items)) E' E ∧ ShowsI src lbs tight items after E'
  | .foot label bs, after, E => ∃ E', Around (.footnote label) E' E ∧ ShowsL src bs after E'
  | .table cap ls, _, E => ∃ E', Around .table E' E ∧ ∃ C T, E' = C ++ T ∧ CapShows src cap C ∧ TabShows src [] ls T
  | .attr w is b, after, E => ∃ s E', E = ⟨.atom .attributes, s⟩ :: E' ∧ Jotdown.textAt src s = Attr.writeAttrs w is ++ [c! '\n'] ∧ Jotdown.Block.SpanOk src s ∧ Body src b after E'
/-- The block events of blocks. -/
def ShowsL (src : Bytes) : List Blk → Bool → List Block.Event → Prop
  | [], _, E => E = []
  | b :: bs, after, E => ∃ E1 E2 E3, E = E1 ++ (E2 ++ E3) ∧ Body src b (!bs.isEmpty || after) E1 ∧ BlankShows ((!bs.isEmpty || after) && !b.keeps) E2 ∧ ShowsL src bs after E3
/-- The block events of the details of an item of a description list. -/
def ShowsT (src : Bytes) : List Blk → Bool → List Block.Event → Prop
  | [], _, E => E = []
  | _ :: bs, after, E => ShowsL src bs after E
/-- The block events of list items. -/
def ShowsI (src : Bytes) : List Label → Bool → List (List Blk) → Bool → List Block.Event → Prop
  | lb :: lbs, tight, it :: its, after, E =>
    ∃ E1 E3, E = E1 ++ E3 ∧ (∃ E' X, Around (.listItem lb.itemKind) E' X ∧
        ((lb.isDesc = false ∧ E1 = X ∧ ShowsL src it (if its.isEmpty then after else !tight) E') ∨
        (lb.isDesc = true ∧ ∃ s1 s2 T, E1 = ⟨.stale, s1⟩ :: ⟨.stale, s2⟩ :: (T ++ X) ∧ TermShows src it (if its.isEmpty then after else !tight) T ∧
          ShowsT src it (if its.isEmpty then after else !tight) E'))) ∧
      ShowsI src lbs tight its after E3
  | _, _, _, _, E => E = []
end

/-- The block events of a list item. -/
def ItemShows (src : Bytes) (lb : Label) (it : List Blk) (a : Bool) (E : List Block.Event) : Prop :=
  ∃ E' X, Around (.listItem lb.itemKind) E' X ∧
    ((lb.isDesc = false ∧ E = X ∧ ShowsL src it a E') ∨
    (lb.isDesc = true ∧ ∃ s1 s2 T, E = ⟨.stale, s1⟩ :: ⟨.stale, s2⟩ :: (T ++ X) ∧ TermShows src it a T ∧ ShowsT src it a E'))

def blankTrace (after : Bool) : List Mk := if after then [.blank] else []

def endTrace (bs : List Blk) : List Mk := if endsList bs then [.set false] else []

mutual
def Blk.trace : Blk → Bool → List Mk
  | .quote bs, _ => .block :: (traceL bs false ++ endTrace bs)
  | .div _ _ bs, _ => .block :: (traceL bs false ++ endTrace bs)
  | .list _ _ items, after => [.set (after && !lastEnds items)]
  | .foot _ bs, after => .block :: (traceL bs after ++ endTrace bs)
  | .attr _ _ b, after => .block :: b.trace after
  | _, _ => [.block]
def traceL : List Blk → Bool → List Mk
  | [], _ => []
  | b :: bs, after => b.trace (!bs.isEmpty || after) ++ (blankTrace ((!bs.isEmpty || after) && !b.keeps) ++ traceL bs after)
end

/-! ## Text of lines -/

theorem textAt_drop (src : Bytes) (sp : Span) (n : Nat) : textAt src ⟨sp.start + n, sp.stop⟩ = (textAt src sp).drop n := Block.sliceOf_advance

theorem isBlank_head {l : Bytes} {c : UInt8} (h : l.head? = some c) (hw : isWs c = false) : Block.isBlank l = false := by
  cases l with
  | nil => cases h
  | cons d l => simp at h; subst h; simp [Block.isBlank, hw]

theorem mapLines_id {p : Block.TP} (ls : List Span) (h : ∀ l ∈ ls, Block.SpanOk p.src l ∧ ∃ c, (textAt p.src l).head? = some c ∧ isWs c = false) :
    Block.mapLines p.trimStart ls = .ok ls := by
  induction ls with
  | nil => rfl
  | cons l ls ih =>
    obtain ⟨h1, c, h2, h3⟩ := h l (by simp)
    have : p.trimStart l = .ok l := by
      unfold Block.TP.trimStart
      rw [h1.slice]
      have hz : Block.leadingWs (Block.sliceOf p.src l) = 0 := by
        unfold Block.leadingWs
        refine countWhile_zero ?_
        intro d hd
        have : (Block.sliceOf p.src l).head? = some c := h2
        rw [this] at hd
        cases hd
        exact h3
      simp [Bind.bind, Except.bind, hz, pure, Except.pure]
    rw [Block.mapLines, this, ih (fun m hm => h m (List.mem_cons_of_mem _ hm))]
    rfl

theorem filter_ne {src : Bytes} {ls : List Span} (hok : ∀ l ∈ ls, Block.SpanOk src l) {L : List Bytes} (h : ls.map (textAt src) = L) (hne : ∀ l ∈ L, l ≠ []) :
    ls.filter (fun l => !l.isEmpty) = ls := by
  rw [List.filter_eq_self]
  intro l hl
  have h1 := hne (textAt src l) (by rw [← h]; exact List.mem_map.2 ⟨l, hl, rfl⟩)
  have h2 := Block.sliceOf_length (hok l hl)
  have h3 : (textAt src l).length ≠ 0 := by simpa using h1
  have h4 : textAt src l = Block.sliceOf src l := rfl
  rw [h4, h2] at h3
  simp [Span.isEmpty]
  omega

theorem raw_texts {cs : List Bytes} (h : ∀ l, cs.getLast? = some l → ∃ c, l.getLast? = some c ∧ isWs c = false) :
    (match (cs.map (fun l => l ++ [c! '\n'])).getLast? with
      | some l => (cs.map (fun l => l ++ [c! '\n'])).dropLast ++ [trimEnd l]
      | none => []) = rawTexts cs := by
  induction cs with
  | nil => rfl
  | cons l cs ih =>
    cases cs with
    | nil =>
      obtain ⟨c, h1, h2⟩ := h l rfl
      simp only [List.map_cons, List.map_nil, List.getLast?_singleton, List.dropLast_singleton, List.nil_append, rawTexts]
      rw [Block.trimEnd_append_ws (by simp; decide), Block.trimEnd_of_last]
      intro x hx
      rw [h1] at hx
      cases hx
      exact h2
    | cons l2 cs =>
      have ih := ih (fun x hx => h x (by rw [List.getLast?_cons_cons]; exact hx))
      simp only [List.map_cons, List.getLast?_cons_cons, rawTexts, List.dropLast_cons₂] at ih ⊢
      rw [← ih]
      cases hg : ((l2 ++ [c! '\n']) :: cs.map (fun l => l ++ [c! '\n'])).getLast? with
      | none => simp at hg
      | some y => rfl

theorem rawTexts_ne {cs : List Bytes} (h : ∀ l, cs.getLast? = some l → ∃ c, l.getLast? = some c ∧ isWs c = false) : ∀ l ∈ rawTexts cs, l ≠ [] := by
  induction cs with
  | nil => simp [rawTexts]
  | cons l cs ih =>
    cases cs with
    | nil =>
      obtain ⟨c, h1, h2⟩ := h l rfl
      intro x hx
      simp only [rawTexts, List.mem_singleton] at hx
      subst hx
      rintro rfl
      cases h1
    | cons l2 cs =>
      have ih := ih (fun x hx => h x (by rw [List.getLast?_cons_cons]; exact hx))
      intro x hx
      simp only [rawTexts] at hx
      rcases List.mem_cons.1 hx with rfl | hx
      · simp
      · exact ih x hx

theorem codeTexts_ne {lang : Bytes} {cs : List Bytes} (h : lang.head? = some (c! '=') → ∀ l, cs.getLast? = some l → ∃ c, l.getLast? = some c ∧ isWs c = false) :
    ∀ l ∈ codeTexts lang cs, l ≠ [] := by
  unfold codeTexts
  split
  · rename_i hr; exact rawTexts_ne (h hr)
  · simp

/-! ## Blocks without blocks in them -/

theorem Stops_sep {k : Block.Kind} {R : List Bytes} (hR : R = [] ∨ ∃ R', R = [c! '\n'] :: R') (h : ∀ r, k.continues [c! '\n'] = .ok r → r = (false, k)) : Stops k R := by
  rcases hR with rfl | ⟨R', rfl⟩
  · trivial
  · intro r _ _ hr; exact h r hr

/-- The steps of a block that is not part of a list. -/
theorem parseBlock_parts {p p' : Block.TP} {fuel n : Nat} {first : Span} {rest : List Span} {top : Bool}
    (h : Block.TP.parseBlock fuel p (first :: rest) top = .ok (p', n)) :
    ∃ f b, fuel = f + 1 ∧ Block.prepare p.src first rest = .ok b ∧ n = b.lineCount ∧
      (b.kind.isListItem = false → b.kind ≠ .atom .attributes → ∃ blk p2, let q := mark (settle p b.spanStart.start) (if b.kind = .atom .blankline then .blank else .block)
        Block.mkBlock p.src b.kind top b.spanStart.start = .ok blk ∧ q.emit (fun c => Block.TP.parseContainer f q c b) blk b = .ok p2 ∧ p' = bare p2) := by
  cases fuel with
  | zero => simp [Block.TP.parseBlock] at h
  | succ f =>
    rw [Block.TP.parseBlock] at h
    obtain ⟨b, h1, g1⟩ := bind_ok h
    obtain ⟨p1, h2, g2⟩ := bind_ok g1
    obtain ⟨blk, h3, g3⟩ := bind_ok g2
    obtain ⟨p2, h4, g4⟩ := bind_ok g3
    obtain ⟨p3, h5, g5⟩ := bind_ok g4
    cases g5
    refine ⟨f, b, rfl, h1, rfl, ?_⟩
    intro hl ha
    have e1 := beforeBlock_mark hl h2
    subst e1
    rw [(mark_facts _ _).1, (settle_src p _).1] at h3
    exact ⟨blk, p2, h3, h4, setAttrStart_bare ha h5⟩

theorem skipFence_closed {i m : Nat} {k : Block.FenceKind} {sp : Bytes} {nr : Option (UInt8 × Nat)} {x : Span} {rest r : List Span} {j : Nat} (hj : j + 1 ≤ rest.length)
    (h : Block.skipFence (.fenced i m k sp true nr) (x :: rest.take (j + 1)) = .ok r) : r = rest.take j := by
  have hl : (x :: rest.take (j + 1)).length = j + 2 := by simp [Nat.min_eq_left hj]
  simp only [Block.skipFence, hl, csub, Bind.bind, Except.bind, ↓reduceIte] at h
  rw [if_pos (by omega)] at h
  simp only at h
  rw [if_pos (by omega)] at h
  cases h
  simp [List.take_take]

section
variable {src : Bytes} (hs : Safe src) {p p' : Block.TP} {fuel n : Nat} {top : Bool} {R : List Bytes} {ls : List Span}
include hs

theorem para_ok {is : List Inl} (h : ParaOk is) (hp : p.src = src) (hok : ∀ l ∈ ls, Block.SpanOk src l) {j : Nat} (hl : ls.map (textAt src) = lead j (Blk.para is).lines ++ R)
    (hR : R = [] ∨ ∃ R', R = [c! '\n'] :: R') (hc : Quiet p) (after : Bool) (hb : Block.TP.parseBlock fuel p ls top = .ok (p', n)) :
    n = (Blk.para is).lines.length ∧ ∃ pos E a, Body src (.para is) after E ∧ p' = al (app (marks (settle p pos) ((Blk.para is).trace after)) E) (a, none) := by
  subst hp
  simp only [Blk.lines] at hl ⊢
  obtain ⟨A, z, hA1, hA2⟩ := para_lines h
  have hne : ∃ l L, splitNl (prints is ++ [c! '\n']) = l :: L := by
    rw [hA2]; cases A <;> simp
  obtain ⟨l, L, hL⟩ := hne
  have hheads := para_heads h
  cases ls with
  | nil => rw [hL] at hl; simp [lead] at hl
  | cons first rest =>
    obtain ⟨f, b, -, hprep, hn, hparts⟩ := parseBlock_parts hb
    rw [hL] at hl
    simp only [lead, List.cons_append] at hl
    obtain ⟨g1, g2, g3, g4, ls', g5, g6⟩ := prepare_parts hs hok hl (k := .paragraph) (k' := .paragraph) (a := j) (m := j)
      (fun r _ _ hr => by
        obtain ⟨r', e1, e2⟩ := identify_pad hr
        rw [e2, para_ident h hL e1]
        simp [shiftRead, deeper])
      (Runs.all (by
        intro x hx r _ _ hr
        obtain ⟨c, hc1, hc2⟩ := hheads x (by rw [hL]; exact List.mem_cons_of_mem _ hx)
        simp only [Block.Kind.continues, isBlank_head hc1 hc2] at hr
        cases hr; rfl))
      (Stops_sep hR (by intro r hr; cases hr; rfl)).as
      (by simp) hprep
    obtain ⟨blk, p2, hmk, hemit, hp2⟩ := hparts (by rw [g1]; rfl) (by rw [g1]; simp)
    rw [g1] at hmk hemit
    simp only [Block.mkBlock, Except.ok.injEq] at hmk
    subst hmk
    simp only [reduceCtorEq, ↓reduceIte] at hemit
    simp only [Block.TP.emit, g1] at hemit
    simp only [Block.skipOuter, Except.ok.injEq] at g5
    subst g5
    simp only [Block.skipFence, Except.ok.injEq] at g6
    obtain ⟨ls2, k1, k2⟩ := parseLeaf_app (by simp [Block.TP.leafSections]) hemit
    have hsrc : (mark (settle p b.spanStart.start) .block).src = p.src := by rw [(mark_facts _ .block).1, (settle_src _ _).1]
    have hlen : L.length ≤ rest.length := by
      have := congrArg List.length hl
      simp at this; omega
    have hsl : (spaces j).length = j := by simp [spaces]
    have hbl : b.ls.map (textAt p.src) = l :: L := by
      rw [← g6]
      simp only [List.map_cons, List.cons.injEq, List.map_take] at hl ⊢
      refine ⟨?_, ?_⟩
      · rw [textAt_drop, hl.1, List.drop_append_of_le_length (by omega)]
        rw [List.drop_of_length_le (by omega)]; rfl
      · rw [hl.2]; simp
    have hfok : Block.SpanOk p.src ⟨first.start + j, first.stop⟩ := by
      have hf := hok first (by simp)
      have hl1 : textAt p.src first = spaces j ++ l := by simpa using congrArg List.head? hl
      have hlen := Block.sliceOf_length hf
      have hx : Block.sliceOf p.src first = spaces j ++ l := hl1
      have hbs := Block.sliceOf_bd_safe hf hs
      rw [hx] at hlen hbs
      simp only [List.length_append, hsl] at hlen
      refine hf.advance (n := j) (by omega) ?_
      rw [hx, List.drop_append_of_le_length (by omega), List.drop_of_length_le (by omega)]
      exact (spaces_bd hbs.1 hbs.2).1
    have hbok : ∀ x ∈ b.ls, Block.SpanOk p.src x := by
      intro x hx
      rw [← g6] at hx
      rcases List.mem_cons.1 hx with rfl | hx
      · exact hfok
      · exact hok x (List.mem_cons_of_mem _ (List.mem_of_mem_take hx))
    have hbh : ∀ x ∈ b.ls, ∃ c, (textAt p.src x).head? = some c ∧ isWs c = false := by
      intro x hx
      refine hheads (textAt p.src x) ?_
      rw [hL, ← hbl]
      exact List.mem_map.2 ⟨x, hx, rfl⟩
    simp only [Block.TP.leafLines] at k1
    rw [mapLines_id _ (by rw [hsrc]; exact fun x hx => ⟨hbok x hx, hbh x hx⟩)] at k1
    simp only [Bind.bind, Except.bind, Block.TP.trimEndsOf] at k1
    have hse : Block.skipEmptyFirst b.ls = b.ls := by
      rw [← g6]
      simp only [Block.skipEmptyFirst]
      rw [if_neg]
      intro he
      obtain ⟨c, hc1, -⟩ := hbh ⟨first.start + j, first.stop⟩ (by rw [← g6]; simp)
      have h1 := Block.sliceOf_length hfok
      simp [Span.isEmpty] at he
      have h2 : textAt p.src ⟨first.start + j, first.stop⟩ = Block.sliceOf p.src ⟨first.start + j, first.stop⟩ := rfl
      rw [h2] at hc1
      have h3 : (Block.sliceOf p.src ⟨first.start + j, first.stop⟩).length ≠ 0 := by
        intro h0
        rw [List.length_eq_zero_iff.1 h0] at hc1
        cases hc1
      simp only at h1
      omega
    rw [hse] at k1
    obtain ⟨ls3, m1, m2, m3⟩ := Block.trimLast_text (p := mark (settle p b.spanStart.start) .block) (ls := b.ls) (by rw [hsrc]; exact hbok)
    rw [m1] at k1
    cases k1
    rw [hsrc] at m2 m3
    have hfinal : ls2.map (textAt p.src) = splitNl (prints is) := by
      have e : b.ls.map (Block.sliceOf p.src) = A ++ [z ++ [c! '\n']] := by rw [← hA2, hL]; exact hbl
      have e2 : ls2.map (Block.sliceOf p.src) = A ++ [z] := by
        rw [m3, e, List.getLast?_append]
        simp only [List.getLast?_singleton, Option.some_or, List.dropLast_concat]
        rw [Block.trimEnd_append_ws (by simp; decide), Block.trimEnd_of_last]
        intro x hx
        have hz : (prints is).getLast? = some x := by
          have : (splitNl (prints is)).flatten = prints is := by
            have : ∀ s, (splitNl s).flatten = s := by
              intro s
              induction s with
              | nil => rfl
              | cons c s ih =>
                simp only [splitNl]
                split
                · simp [ih]
                · split <;> (rename_i hx; rw [hx] at ih; simp at ih; simp [← ih])
            exact this _
          rw [hA1] at this
          rw [← this]
          simp [hx]
        obtain ⟨_, _, _, _, c, hc1, hc2⟩ := h
        rw [hc1] at hz
        cases hz
        exact hc2
      rw [hA1]; exact e2
    refine ⟨by rw [hn, g4, hL]; simp, b.spanStart.start, _, p2.alignments, ⟨b.spanStart, b.spanEnd, ls2, rfl, hfinal⟩, ?_⟩
    rw [filter_ne m2 hfinal (by
      intro x hx he
      subst he
      obtain ⟨c, hc1, -⟩ := h.2.2.2.1 [] hx
      simp at hc1)] at k2
    rw [hp2, k2]
    rfl

theorem brk_ok (hp : p.src = src) (hok : ∀ l ∈ ls, Block.SpanOk src l) (hl : ls.map (textAt src) = Blk.brk.lines ++ R)
    (hc : Quiet p) (after : Bool) (hb : Block.TP.parseBlock fuel p ls top = .ok (p', n)) :
    n = Blk.brk.lines.length ∧ ∃ pos E a, Body src .brk after E ∧ p' = al (app (marks (settle p pos) (Blk.brk.trace after)) E) (a, none) := by
  subst hp
  cases ls with
  | nil => simp [Blk.lines] at hl
  | cons first rest =>
    obtain ⟨f, b, -, hprep, hn, hparts⟩ := parseBlock_parts hb
    obtain ⟨g1, g2, g3, g4, -⟩ := prepare_parts hs hok (A := []) hl (k := .atom .thematicBreak) (k' := .atom .thematicBreak) (m := 3)
      (fun r _ _ hr => brk_ident hr) rfl (Stops.as (by cases R with
        | nil => trivial
        | cons _ _ => intro r _ _ hr; cases hr; rfl)) (by simp) hprep
    obtain ⟨blk, p2, hmk, hemit, hp2⟩ := hparts (by rw [g1]; rfl) (by rw [g1]; simp)
    rw [g1] at hmk hemit
    simp only [Block.mkBlock, Except.ok.injEq] at hmk
    subst hmk
    simp [Block.TP.emit] at hemit
    subst hemit
    refine ⟨by rw [hn, g4]; rfl, b.spanStart.start, [⟨.atom .thematicBreak, b.spanStart⟩], (mark (settle p b.spanStart.start) .block).alignments, ⟨_, rfl⟩, ?_⟩
    rw [hp2]
    rfl

theorem blank_ok (hp : p.src = src) (hok : ∀ l ∈ ls, Block.SpanOk src l) (hl : ls.map (textAt src) = [c! '\n'] :: R)
    (hc : Calm p) (hb : Block.TP.parseBlock fuel p ls top = .ok (p', n)) :
    n = 1 ∧ ∃ s : Span, ∃ a, p' = al (app (mark p .blank) [⟨.atom .blankline, s⟩]) (a, none) := by
  subst hp
  cases ls with
  | nil => simp at hl
  | cons first rest =>
    obtain ⟨f, b, -, hprep, hn, hparts⟩ := parseBlock_parts hb
    obtain ⟨g1, g2, g3, g4, -⟩ := prepare_parts hs hok (A := []) hl (k := .atom .blankline) (k' := .atom .blankline) (m := 1)
      (fun r _ _ hr => newline_ident hr) rfl (Stops.as (by cases R with
        | nil => trivial
        | cons _ _ => intro r _ _ hr; cases hr; rfl)) (by simp) hprep
    obtain ⟨blk, p2, hmk, hemit, hp2⟩ := hparts (by rw [g1]; rfl) (by rw [g1]; simp)
    rw [g1] at hmk hemit
    simp only [Block.mkBlock, Except.ok.injEq] at hmk
    subst hmk
    simp [Block.TP.emit] at hemit
    subst hemit
    refine ⟨by rw [hn, g4]; rfl, b.spanStart, (mark p .blank).alignments, ?_⟩
    rw [hc.settle] at hp2
    rw [hp2]
    rfl

theorem code_ok {m : Nat} {lang : Bytes} {cs : List Bytes} (h : (Blk.code m lang cs).Ok) (hp : p.src = src) (hok : ∀ l ∈ ls, Block.SpanOk src l)
    (hl : ls.map (textAt src) = (Blk.code m lang cs).lines ++ R)
    (hc : Quiet p) (after : Bool) (hb : Block.TP.parseBlock fuel p ls top = .ok (p', n)) :
    n = (Blk.code m lang cs).lines.length ∧ ∃ pos E a, Body src (.code m lang cs) after E ∧ p' = al (app (marks (settle p pos) ((Blk.code m lang cs).trace after)) E) (a, none) := by
  subst hp
  simp only [Blk.Ok] at h
  obtain ⟨h1, h2, h3, h4⟩ := h
  simp only [Blk.lines] at hl ⊢
  cases ls with
  | nil => simp at hl
  | cons first rest =>
    obtain ⟨f, b, -, hprep, hn, hparts⟩ := parseBlock_parts hb
    obtain ⟨g1, g2, g3, g4, ls', g5, g6⟩ := prepare_parts hs hok (A := cs.map (fun l => l ++ [c! '\n']) ++ [ticks m ++ [c! '\n']]) hl
      (k := .fenced 0 m (.codeBlock (c! '`')) lang false none) (k' := .fenced 0 m (.codeBlock (c! '`')) lang true none) (m := (ticks m ++ lang ++ [c! '\n']).length)
      (fun r _ hsf hr => by rw [Block.identify_opens (code_opens h1 h2) hsf] at hr; cases hr; rfl)
      (Runs.append (Runs.all (by
        intro x hx r hb hs hr
        obtain ⟨x', hx', rfl⟩ := List.mem_map.1 hx
        rw [Block.fence_step (.inl rfl) h1 hb hs, (h4 x' hx').2] at hr
        cases hr; rfl)) ⟨_, fun r hb hs hr => by
          rw [Block.fence_step (.inl rfl) h1 hb hs, code_closes] at hr
          cases hr; rfl, rfl⟩)
      (Stops.as (by cases R with
        | nil => trivial
        | cons _ _ => intro r _ _ hr; cases hr; rfl)) (by simp) hprep
    obtain ⟨blk, p2, hmk, hemit, hp2⟩ := hparts (by rw [g1]; rfl) (by rw [g1]; simp)
    rw [g1] at hmk hemit
    simp only [Block.mkBlock, Except.ok.injEq] at hmk
    subst hmk
    simp only [reduceCtorEq, ↓reduceIte] at hemit
    simp only [Block.TP.emit, g1] at hemit
    simp only [Block.skipOuter, Except.ok.injEq] at g5
    subst g5
    have hrest : rest.map (textAt p.src) = cs.map (fun l => l ++ [c! '\n']) ++ ([ticks m ++ [c! '\n']] ++ R) := by
      have := congrArg List.tail hl
      simpa using this
    have hlen : cs.length + 1 ≤ rest.length := by
      have := congrArg List.length hrest
      simp at this; omega
    have hbls : b.ls = rest.take cs.length := by
      exact skipFence_closed hlen (by simpa using g6)
    have hbl : b.ls.map (textAt p.src) = cs.map (fun l => l ++ [c! '\n']) := by
      rw [hbls, List.map_take, hrest, List.take_append_of_le_length (by simp)]
      exact List.take_of_length_le (by simp)
    have hbok : ∀ x ∈ b.ls, Block.SpanOk p.src x := by
      intro x hx
      rw [hbls] at hx
      exact hok x (List.mem_cons_of_mem _ (List.mem_of_mem_take hx))
    obtain ⟨ls2, k1, k2⟩ := parseLeaf_app (by simp [Block.TP.leafSections]) hemit
    have hsrc : (mark (settle p b.spanStart.start) .block).src = p.src := by rw [(mark_facts _ .block).1, (settle_src _ _).1]
    simp only [Block.TP.leafLines] at k1
    obtain ⟨ls3, m1, m2, m3⟩ := Block.mapLines_fence hs (indent := 0) hbok
    rw [hsrc, m1] at k1
    simp only [Bind.bind, Except.bind] at k1
    have hid : ∀ x : Bytes, Block.dedent 0 x = x := by intro x; cases x <;> rfl
    have hfinal3 : ls3.map (textAt p.src) = cs.map (fun l => l ++ [c! '\n']) := by
      rw [← hbl]
      have e : ls3.map (textAt p.src) = _ := m3
      rw [e]
      have : Block.dedent 0 = id := funext hid
      rw [this, List.map_id]; rfl
    have hfinal : ls2.map (textAt p.src) = codeTexts lang cs ∧ ∀ l ∈ ls2, Block.SpanOk p.src l := by
      by_cases hraw : lang.head? = some (c! '=')
      · rw [if_pos hraw] at k1
        obtain ⟨ls4, q1, q2, q3⟩ := Block.trimLast_text (p := mark (settle p b.spanStart.start) .block) (ls := ls3) (by rw [hsrc]; exact m2)
        rw [q1] at k1
        cases k1
        rw [hsrc] at q2 q3
        refine ⟨?_, q2⟩
        have e3 : ls2.map (textAt p.src) = _ := q3
        have e4 : ls3.map (Block.sliceOf p.src) = cs.map (fun l => l ++ [c! '\n']) := hfinal3
        rw [e3, e4]
        unfold codeTexts
        rw [if_pos hraw]
        exact raw_texts (h3 hraw)
      · rw [if_neg hraw] at k1
        cases k1
        unfold codeTexts
        rw [if_neg hraw]
        exact ⟨hfinal3, m2⟩
    obtain ⟨hfinal, m2⟩ := hfinal
    refine ⟨by rw [hn, g4]; simp, b.spanStart.start, _, p2.alignments, ⟨b.spanStart, b.spanEnd, ls2, rfl, hfinal⟩, ?_⟩
    rw [filter_ne m2 hfinal (codeTexts_ne h3)] at k2
    rw [hp2, k2]
    rfl

end

end Jotdown.Round
