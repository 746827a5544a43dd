import Verif.Proofs.RoundLoop
import Verif.Proofs.RoundTable
/-! # Round trip: blocks with blocks in them -/
namespace Jotdown.Round
open Jotdown Jotdown.Notation

/-! ## Lines of containers -/

theorem trim_single {l : Bytes} (h : ∀ c ∈ l, isWs c = true) : Jotdown.trim (c! '>' :: l) = [c! '>'] := by
  unfold Jotdown.trim Jotdown.trimStart
  rw [List.dropWhile_cons_of_neg (by decide)]
  have := Block.trimEnd_append_ws (a := [c! '>']) h
  simp only [List.singleton_append] at this
  rw [this]
  rfl

theorem quoteLine_text {src : Bytes} {o : Nat} {sp sp' : Span} {l : Bytes} (hok : Block.SpanOk src sp) (hl : textAt src sp = quoted l)
    (h : Block.containerLine src .blockquote o sp = .ok sp') : textAt src sp' = l := by
  unfold Block.containerLine at h
  have htx : textAt src sp = Block.sliceOf src sp := rfl
  rw [hok.slice, ← htx, hl] at h
  simp only [Bind.bind, Except.bind] at h
  cases hp : Block.prefixLen .blockquote o (quoted l) with
  | error e => rw [hp] at h; cases h
  | ok skip =>
    rw [hp] at h
    simp only [pure, Except.pure, Except.ok.injEq] at h
    subst h
    rw [textAt_drop, hl]
    unfold quoted at hp ⊢
    by_cases hb : l.all isWs = true
    · rw [if_pos hb] at hp ⊢
      simp only [List.all_eq_true] at hb
      unfold Block.prefixLen at hp
      rw [trim_single hb] at hp
      simp only [↓reduceIte, List.isEmpty_cons, Bool.false_eq_true] at hp
      have : Block.leadingWs (c! '>' :: l) = 0 := countWhile_zero (by intro c hc; simp at hc; subst hc; decide)
      rw [this] at hp
      cases hp
      have h1 : 1 ≤ Lex.countWhile (· != c! '\n') (c! '>' :: l) := by
        simp [Lex.countWhile, List.takeWhile_cons]
      rw [Nat.min_eq_left (by omega)]
      rfl
    · rw [if_neg hb] at hp ⊢
      have hlead : Block.leadingWs (c! '>' :: c! ' ' :: l) = 0 := countWhile_zero (by intro c hc; simp at hc; subst hc; decide)
      have htrim : ∃ x z, Jotdown.trim (c! '>' :: c! ' ' :: l) = c! '>' :: c! ' ' :: x :: z := by
        unfold Jotdown.trim Jotdown.trimStart
        rw [List.dropWhile_cons_of_neg (by decide)]
        have hex : ∃ A c Y, l = A ++ c :: Y ∧ isWs c = false := by
          simp only [List.all_eq_true, Classical.not_forall] at hb
          obtain ⟨c, hc, hw⟩ := hb
          obtain ⟨A, Y, e⟩ := List.append_of_mem hc
          exact ⟨A, c, Y, e, by simpa using hw⟩
        obtain ⟨A, c, Y, e, hw⟩ := hex
        obtain ⟨Z, hz⟩ := trimEnd_keep (c! '>' :: c! ' ' :: A) hw Y
        rw [e]
        have e2 : c! '>' :: c! ' ' :: (A ++ c :: Y) = (c! '>' :: c! ' ' :: A) ++ c :: Y := by simp
        rw [e2, hz]
        cases A with
        | nil => exact ⟨c, Z, rfl⟩
        | cons a A => exact ⟨a, A ++ c :: Z, by simp⟩
      obtain ⟨x, z, hz⟩ := htrim
      unfold Block.prefixLen at hp
      rw [hz] at hp
      simp only [List.isEmpty_cons, Bool.false_eq_true, ↓reduceIte, hlead] at hp
      rw [if_neg (by simp)] at hp
      simp only [List.head?_cons, ↓reduceIte] at hp
      obtain ⟨s, hs, hp2⟩ := bind_ok hp
      have : s = c! ' ' :: x :: z := by
        unfold strSlice at hs
        split at hs
        · cases hs; simp
        · cases hs
      subst this
      simp only [pure, Except.pure, Except.ok.injEq] at hp2
      rw [if_pos (by decide)] at hp2
      subst hp2
      have h2 : 2 ≤ Lex.countWhile (· != c! '\n') (c! '>' :: c! ' ' :: l) := by
        simp [Lex.countWhile, List.takeWhile_cons]
      rw [Nat.min_eq_left (by omega)]
      rfl

theorem fenceLine_text {src : Bytes} {o m : Nat} {k : Block.FenceKind} {spec : Bytes} {cl : Bool} {nr : Option (UInt8 × Nat)} {sp sp' : Span}
    (h : Block.containerLine src (.fenced 0 m k spec cl nr) o sp = .ok sp') : sp' = sp := by
  unfold Block.containerLine at h
  obtain ⟨line, -, h1⟩ := bind_ok h
  obtain ⟨skip, h2, h3⟩ := bind_ok h1
  simp [Block.prefixLen] at h2
  subst h2
  cases h3
  simp

theorem mapLines_quote {src : Bytes} {o : Nat} {L : List Bytes} {ls ls' : List Span} (hok : ∀ l ∈ ls, Block.SpanOk src l) (hl : ls.map (textAt src) = L.map quoted)
    (h : Block.mapLines (Block.containerLine src .blockquote o) ls = .ok ls') : ls'.map (textAt src) = L := by
  induction ls generalizing ls' L with
  | nil => cases h; cases L with
    | nil => rfl
    | cons _ _ => simp at hl
  | cons l ls ih =>
    cases L with
    | nil => simp at hl
    | cons x L =>
      simp only [List.map_cons, List.cons.injEq] at hl
      rw [Block.mapLines] at h
      obtain ⟨s, h1, h2⟩ := bind_ok h
      obtain ⟨ss, h3, h4⟩ := bind_ok h2
      cases h4
      rw [List.map_cons, quoteLine_text (hok l (by simp)) hl.1 h1, ih (fun m hm => hok m (List.mem_cons_of_mem _ hm)) hl.2 h3]

theorem mapLines_fenced {src : Bytes} {o m : Nat} {k : Block.FenceKind} {spec : Bytes} {cl : Bool} {nr : Option (UInt8 × Nat)} {ls ls' : List Span}
    (h : Block.mapLines (Block.containerLine src (.fenced 0 m k spec cl nr) o) ls = .ok ls') : ls' = ls := by
  induction ls generalizing ls' with
  | nil => cases h; rfl
  | cons l ls ih =>
    rw [Block.mapLines] at h
    obtain ⟨s, h1, h2⟩ := bind_ok h
    obtain ⟨ss, h3, h4⟩ := bind_ok h2
    cases h4
    rw [fenceLine_text h1, ih h3]

theorem mapLines_ok {src : Bytes} (hs : Safe src) {k : Block.Kind} (hk : k.isCont = true) {o : Nat} {ls ls' : List Span} (hok : ∀ l ∈ ls, Block.SpanOk src l)
    (h : Block.mapLines (Block.containerLine src k o) ls = .ok ls') : ∀ l ∈ ls', Block.SpanOk src l := by
  induction ls generalizing ls' with
  | nil => cases h; simp
  | cons l ls ih =>
    rw [Block.mapLines] at h
    obtain ⟨s, h1, h2⟩ := bind_ok h
    obtain ⟨ss, h3, h4⟩ := bind_ok h2
    cases h4
    have := (Block.containerLine_ok (o := o) hk (hok l (by simp)) hs).of_ok h1
    intro x hx
    rcases List.mem_cons.1 hx with rfl | hx
    · exact this.1.ok
    · exact ih (fun m hm => hok m (List.mem_cons_of_mem _ hm)) h3 x hx

/-! ## The first line -/

theorem Flush.notBlank {l : Bytes} (h : Flush l) : l.all isWs = false := by
  obtain ⟨c, cs, rfl, hw, -⟩ := h
  simp [hw]

theorem para_cons {is : List Inl} (h : ParaOk is) : ∃ l L, splitNl (prints is ++ [c! '\n']) = l :: L := by
  obtain ⟨A, z, hA1, hA2⟩ := para_lines h
  rw [hA2]; cases A <;> simp

/-- The first line of an item. -/
theorem item_cons {it : List Blk} (h : startsPara it = true) (ho : BlksOk it) :
    ∃ c cs L, blkLines it = (c :: cs) :: L ∧ isWs c = false ∧ FirstOk (c :: cs) := by
  cases it with
  | nil => simp [startsPara] at h
  | cons b bs =>
    cases b with
    | para is =>
      simp only [BlksOk] at ho
      have hp : ParaOk is := ho.1
      obtain ⟨l, L, hl⟩ := para_cons hp
      obtain ⟨c, cs, rfl, h1⟩ := para_first hp hl
      exact ⟨c, cs, L ++ (sep bs ++ blkLines bs), by simp [blkLines, Blk.lines, hl], h1⟩
    | _ => simp [startsPara, Blk.isPara] at h

theorem item_lines {lbs : List Label} {tight : Bool} {items : List (List Blk)} (hne : items ≠ []) (hlen : lbs.length = items.length) (hlb : ∀ lb ∈ lbs, lb.Ok) (hit : ItemsOk items) :
    ∃ l L, itemLines lbs tight items = l :: L ∧ MarkerLine l := by
  cases items with
  | nil => exact absurd rfl hne
  | cons it its =>
    cases lbs with
    | nil => simp at hlen
    | cons lb lbs =>
      simp only [ItemsOk] at hit
      obtain ⟨c, cs, L, e, h1⟩ := item_cons hit.1 hit.2.1
      exact ⟨lb.text ++ c! ' ' :: c :: cs, _, by simp only [itemLines, e, itemOf, List.cons_append]; rfl, lb, c, cs, hlb lb (by simp), rfl, h1⟩

/-- The first line of a block. -/
theorem Blk.lines_cons (b : Blk) (h : b.Ok) : ∃ l L, b.lines = l :: L ∧ Flush l := by
  cases b with
  | para is =>
    obtain ⟨l, L, e⟩ := para_cons h
    obtain ⟨c, cs, h1, h2, -⟩ := para_first h e
    exact ⟨l, L, e, c, cs, h1, h2, para_noCap h e⟩
  | brk => exact ⟨_, _, rfl, _, _, rfl, by decide⟩
  | code n lang ls =>
    obtain ⟨m, rfl⟩ : ∃ m, n = m + 1 := ⟨n - 1, by simp only [Blk.Ok] at h; omega⟩
    have e : ticks (m + 1) ++ lang ++ [c! '\n'] = c! '`' :: (ticks m ++ lang ++ [c! '\n']) := by simp only [ticks, List.replicate_succ, List.cons_append]
    exact ⟨_, _, rfl, c! '`', _, e, by decide, by rw [e]; exact notCap (by decide) _⟩
  | quote bs =>
    simp only [Blk.Ok] at h
    cases bs with
    | nil => exact absurd rfl h.1
    | cons b bs =>
      simp only [BlksOk] at h
      obtain ⟨l, L, e, -⟩ := Blk.lines_cons b h.2.1
      refine ⟨quoted l, (L ++ (sep bs ++ blkLines bs)).map quoted, by simp [Blk.lines, blkLines, e], ?_⟩
      obtain ⟨cs, e2, -⟩ := quoted_cons l
      exact ⟨_, cs, e2, by decide, by rw [e2]; exact notCap (by decide) _⟩
  | div n c bs =>
    obtain ⟨m, rfl⟩ : ∃ m, n = m + 1 := ⟨n - 1, by simp only [Blk.Ok] at h; omega⟩
    have e : colons (m + 1) ++ c! ' ' :: c ++ [c! '\n'] = c! ':' :: (colons m ++ c! ' ' :: c ++ [c! '\n']) := by simp only [colons, List.replicate_succ, List.cons_append]
    exact ⟨_, _, rfl, c! ':', _, e, by decide, by rw [e]; exact notCap (by decide) _⟩
  | list lbs tight items =>
    simp only [Blk.Ok] at h
    obtain ⟨l, L, e, hm⟩ := item_lines (tight := tight) h.1 h.2.1 (fun lb hl => (h.2.2.1 lb hl).1) h.2.2.2.2
    exact ⟨l, L, e, hm.flush⟩
  | foot label bs =>
    simp only [Blk.Ok] at h
    obtain ⟨c, cs, L, e, h1⟩ := item_cons h.2.1 h.2.2.1
    exact ⟨footLabel label ++ c! ' ' :: c :: cs, _, by simp only [Blk.lines, e, itemOf]; rfl, c! '[', _, rfl, by decide, by exact notCap (by decide) _⟩
  | table cap ls =>
    simp only [Blk.Ok] at h
    cases ls with
    | nil => exact absurd rfl h.1.1
    | cons l ls => exact ⟨l.text, _, rfl, c! '|', _, TabLine.text_eq l, by decide, by rw [TabLine.text_eq]; exact notCap (by decide) _⟩
  | attr w is b =>
    obtain ⟨cs, e⟩ := attr_line (w := w) (is := is)
    exact ⟨_, b.lines, rfl, c! '{', _, e, by decide, by rw [e]; exact notCap (by decide) _⟩

theorem blkLines_cons {bs : List Blk} (hne : bs ≠ []) (h : BlksOk bs) : ∃ l L, blkLines bs = l :: L ∧ Flush l := by
  cases bs with
  | nil => exact absurd rfl hne
  | cons b bs =>
    simp only [BlksOk] at h
    obtain ⟨l, L, e, hf⟩ := Blk.lines_cons b h.1
    exact ⟨l, L ++ (sep bs ++ blkLines bs), by simp [blkLines, e], hf⟩

/-! ## Attributes -/

theorem parseBlock_attr {p p' : Block.TP} {fuel n : Nat} {first : Span} {rest : List Span} {top : Bool}
    (h : Block.TP.parseBlock fuel p (first :: rest) top = .ok (p', n)) :
    ∃ b, Block.prepare p.src first rest = .ok b ∧ n = b.lineCount ∧
      (b.kind = .atom .attributes → ∃ a, p' = al (app (mark (settle p b.spanStart.start) .block) [⟨.atom .attributes, b.spanStart⟩]) a
        ∧ a.2 = some (p.attrStart.getD (mark (settle p b.spanStart.start) .block).events.length)) := by
  cases fuel with
  | zero => simp [Block.TP.parseBlock] at h
  | succ f =>
    rw [Block.TP.parseBlock] at h
    obtain ⟨b, h1, g1⟩ := bind_ok h
    obtain ⟨p1, h2, g2⟩ := bind_ok g1
    obtain ⟨blk, h3, g3⟩ := bind_ok g2
    obtain ⟨p2, h4, g4⟩ := bind_ok g3
    obtain ⟨p3, h5, g5⟩ := bind_ok g4
    cases g5
    refine ⟨b, h1, rfl, ?_⟩
    intro hk
    have e1 := beforeBlock_mark (by rw [hk]; rfl) h2
    rw [hk, if_neg (by simp)] at e1
    subst e1
    rw [hk] at h3
    simp only [Block.mkBlock, Except.ok.injEq] at h3
    subst h3
    simp [Block.TP.emit] at h4
    subst h4
    unfold Block.TP.setAttrStart at h5
    rw [if_pos hk] at h5
    have ha : (app (mark (settle p b.spanStart.start) .block) [⟨.atom .attributes, b.spanStart⟩]).attrStart = p.attrStart := by
      show (mark (settle p b.spanStart.start) .block).attrStart = _
      rw [(mark_facts _ .block).2.2.2.1, (settle_src _ _).2]
    split at h5
    · rename_i k hk2
      cases h5
      refine ⟨(_, _), (al_self _).symm, ?_⟩
      have hk3 : p.attrStart = some k := ha.symm.trans hk2
      rw [hk3]
      exact hk2
    · rename_i hk2
      obtain ⟨k, h7, h6⟩ := bind_ok h5
      cases h6
      refine ⟨((mark (settle p b.spanStart.start) .block).alignments, some k), rfl, ?_⟩
      have hk3 : p.attrStart = none := ha.symm.trans hk2
      rw [hk3]
      have e : ((mark (settle p b.spanStart.start) .block).events ++ [(⟨.atom .attributes, b.spanStart⟩ : Block.Event)]).length - 1 = k := by
        unfold csub at h7
        split at h7
        · exact Except.ok.inj h7
        · cases h7
      simp only [List.length_append, List.length_cons, List.length_nil, Nat.add_sub_cancel] at e
      simp [e]

theorem attr_ok {src : Bytes} (hs : Safe src) {p p' : Block.TP} {fuel n : Nat} {top : Bool} {R : List Bytes} {ls : List Span}
    {w : Bytes} {is : List (Attr.Item × Bytes)} (hw : ∀ c ∈ w, isWs c = true) (hsep : Attr.WellSeparated is)
    (hp : p.src = src) (hok : ∀ l ∈ ls, Block.SpanOk src l) (hl : ls.map (textAt src) = (Attr.writeAttrs w is ++ [c! '\n']) :: R)
    (hb : Block.TP.parseBlock fuel p ls top = .ok (p', n)) :
    n = 1 ∧ ∃ pos s a, textAt src s = Attr.writeAttrs w is ++ [c! '\n'] ∧ Block.SpanOk src s ∧ p' = al (app (mark (settle p pos) .block) [⟨.atom .attributes, s⟩]) a
      ∧ a.2 = some (p.attrStart.getD (mark (settle p pos) .block).events.length) := by
  subst hp
  cases ls with
  | nil => simp at hl
  | cons first rest =>
    obtain ⟨b, hprep, hn, hparts⟩ := parseBlock_attr hb
    obtain ⟨g1, g2, g3, g4, -⟩ := prepare_parts hs hok (A := []) hl (k := .atom .attributes) (k' := .atom .attributes) (a := 0) (m := (Attr.writeAttrs w is ++ [c! '\n']).length)
      (fun r _ _ hr => by rw [attr_ident hw hsep] at hr; cases hr; rfl) rfl (Stops.as (by cases R with
        | nil => trivial
        | cons _ _ => intro r _ _ hr; cases hr; rfl)) (by simp) hprep
    obtain ⟨a, e, e2⟩ := hparts g1
    have hf := hok first (by simp)
    have htx : textAt p.src first = Attr.writeAttrs w is ++ [c! '\n'] := by simpa using congrArg List.head? hl
    have hlen : first.stop = first.start + (Attr.writeAttrs w is ++ [c! '\n']).length := by
      rw [← htx]
      have h1 := hf.le
      have h2 := hf.len
      unfold textAt
      simp only [List.length_take, List.length_drop]
      omega
    have hspan : b.spanStart = first := by
      rw [g2, ← hlen]; rfl
    exact ⟨by rw [hn, g4]; rfl, b.spanStart.start, first, a, htx, hf, by rw [e, hspan], e2⟩

/-! ## Containers -/

theorem parseContainer_parts {p p' : Block.TP} {fuel : Nat} {c : Block.Container} {b : Block.Prepared} (hc : c ≠ .listItem .description)
    (h : Block.TP.parseContainer fuel p c b = .ok p') :
    ∃ q ls p2, Block.mapTail (Block.containerLine p.src b.kind b.outerLen) b.ls = .ok ls ∧ p.openList b.kind b.spanStart.start = .ok q ∧
      Loop false (q.enter (.container c) b.spanStart) ls p2 ∧ p2.endContainer c b.spanEnd none = .ok p' := by
  cases fuel with
  | zero => simp [Block.TP.parseContainer] at h
  | succ f =>
    rw [Block.TP.parseContainer] at h
    obtain ⟨⟨q, ls, dt⟩, h1, h2⟩ := bind_ok h
    clear h
    obtain ⟨p2, h3, h4⟩ := bind_ok h2
    clear h2
    unfold Block.TP.beginContainer at h1
    obtain ⟨ls', h5, h6⟩ := bind_ok h1
    obtain ⟨q', h7, h8⟩ := bind_ok h6
    simp only [Block.TP.openTerm, if_neg hc, Bind.bind, Except.bind, pure, Except.pure, Except.ok.injEq, Prod.mk.injEq] at h8
    obtain ⟨rfl, rfl, rfl⟩ := h8
    exact ⟨q', ls', p2, h5, h7, loop_children h3, h4⟩

theorem parseContainer_desc {p p' : Block.TP} {fuel : Nat} {b : Block.Prepared}
    (h : Block.TP.parseContainer fuel p (.listItem .description) b = .ok p') :
    ∃ q ls p2 s x sd, Block.mapTail (Block.containerLine p.src b.kind b.outerLen) b.ls = .ok ls ∧ p.openList b.kind b.spanStart.start = .ok q ∧
      Loop false ((app q [⟨.enter (.leaf .descriptionTerm), s⟩, ⟨.exit (.leaf .descriptionTerm), x⟩]).enter (.container (.listItem .description)) sd) ls p2 ∧
      p2.endContainer (.listItem .description) b.spanEnd (some (q.events.length, q.events.length + 2, q.open_.length)) = .ok p' := by
  cases fuel with
  | zero => simp [Block.TP.parseContainer] at h
  | succ f =>
    rw [Block.TP.parseContainer] at h
    obtain ⟨⟨q, ls, dt⟩, h1, h2⟩ := bind_ok h
    clear h
    obtain ⟨p2, h3, h4⟩ := bind_ok h2
    clear h2
    unfold Block.TP.beginContainer at h1
    obtain ⟨ls', h5, h6⟩ := bind_ok h1
    clear h1
    obtain ⟨q', h7, h8⟩ := bind_ok h6
    clear h6
    obtain ⟨⟨q1, sd, dt1⟩, h9, h10⟩ := bind_ok h8
    clear h8
    cases h10
    unfold Block.TP.openTerm at h9
    rw [if_pos rfl] at h9
    obtain ⟨sp, h11, h12⟩ := bind_ok h9
    clear h9
    obtain ⟨q2, h13, h14⟩ := bind_ok h12
    clear h12
    obtain ⟨l0, h15, h16⟩ := bind_ok h14
    clear h14
    rw [exit_eq (i := q'.events.length) (rest := q'.open_) (n := .leaf .descriptionTerm) (s := b.spanStart) rfl (by simp [Block.TP.enter]) h13] at h16
    simp only [pure, Except.pure, Except.ok.injEq, Prod.mk.injEq] at h16
    obtain ⟨rfl, rfl, rfl⟩ := h16
    have e : ({ (q'.enter (.leaf .descriptionTerm) b.spanStart) with
        open_ := q'.open_
        events := (q'.enter (.leaf .descriptionTerm) b.spanStart).events ++ [⟨.exit (.leaf .descriptionTerm), ⟨sp.stop, sp.stop⟩⟩] } : Block.TP)
        = app q' [⟨.enter (.leaf .descriptionTerm), b.spanStart⟩, ⟨.exit (.leaf .descriptionTerm), ⟨sp.stop, sp.stop⟩⟩] := by
      simp [app, Block.TP.enter]
    rw [e] at h3
    refine ⟨q', _, p2, _, _, _, h5, h7, loop_children h3, ?_⟩
    simpa [Block.TP.enter] using h4

theorem openList_other {p q : Block.TP} {k : Block.Kind} {pos : Nat} (hk : k.isListItem = false) (h : p.openList k pos = .ok q) : q = p := by
  unfold Block.TP.openList at h
  cases k with
  | listItem a b c => simp [Block.Kind.isListItem] at hk
  | _ => cases h; rfl

/-- The lines of some blocks, the first one perhaps indented, are parsed as such. -/
def Kids (src : Bytes) (bs : List Blk) (after : Bool) : Prop :=
  ∀ (top : Bool) (p p' : Block.TP) (ls : List Span) (j : Nat), p.src = src → (∀ l ∈ ls, Block.SpanOk src l) → ls.map (textAt src) = lead j (blkLines bs ++ blankLine after) →
    (j = 0 ∨ startsPara bs = true) → Calm p → Loop top p ls p' → Ends (endsList bs) p' ∧ Goes p (traceL bs after) (ShowsL src bs after) p'

section
variable {src : Bytes} (hs : Safe src) {p p' : Block.TP} {fuel n : Nat} {top : Bool} {R : List Bytes} {ls : List Span}
include hs

theorem quote_ok {bs : List Blk} (h : (Blk.quote bs).Ok) (hkids : Kids src bs false) (hp : p.src = src) (hok : ∀ l ∈ ls, Block.SpanOk src l)
    (hl : ls.map (textAt src) = (Blk.quote bs).lines ++ R) (hR : R = [] ∨ ∃ R', R = [c! '\n'] :: R') (hc : Quiet p) (after : Bool)
    (hb : Block.TP.parseBlock fuel p ls top = .ok (p', n)) :
    n = (Blk.quote bs).lines.length ∧ ∃ pos E a, Body src (.quote bs) after E ∧ p' = al (app (marks (settle p pos) ((Blk.quote bs).trace after)) E) (a, none) := by
  subst hp
  simp only [Blk.Ok] at h
  obtain ⟨hne, hbs⟩ := h
  obtain ⟨l, L, hbl, hfl⟩ := blkLines_cons hne hbs
  have hlw := hfl.notBlank
  have hqlines : (Blk.quote bs).lines = quoted l :: L.map quoted := by simp [Blk.lines, hbl]
  cases ls with
  | nil => rw [hqlines] at hl; simp at hl
  | cons first rest =>
    obtain ⟨f, b, rfl, hprep, hn, hparts⟩ := parseBlock_parts hb
    rw [hqlines] at hl
    obtain ⟨g1, g2, g3, g4, ls', g5, g6⟩ := prepare_parts hs hok hl (k := .blockquote) (k' := .blockquote) (k3 := .blockquote) (a := 0) (m := 1)
      (fun r _ _ hr => by rw [quoted_ident] at hr; cases hr; rfl)
      (Runs.all (by
        intro x hx r _ _ hr
        obtain ⟨y, -, rfl⟩ := List.mem_map.1 hx
        simp only [Block.Kind.continues, quoted_ident, Bind.bind, Except.bind, pure, Except.pure] at hr
        cases hr; simp))
      (Stops_sep hR (by intro r hr; cases hr; rfl)).as (by simp) hprep
    obtain ⟨blk, p2, hmk, hemit, hp2⟩ := hparts (by rw [g1]; rfl) (by rw [g1]; simp)
    rw [g1] at hmk hemit
    simp only [Block.mkBlock, Except.ok.injEq] at hmk
    subst hmk
    simp only [reduceCtorEq, ↓reduceIte] at hemit
    simp only [Block.TP.emit] at hemit
    simp only [reduceCtorEq, ↓reduceIte] at hemit
    obtain ⟨q, kls, p3, k1, k0, k2, k3⟩ := parseContainer_parts (by simp) hemit
    have e0 := openList_other (by rw [g1]; rfl) k0
    subst e0
    have hsrc : (mark (settle p b.spanStart.start) .block).src = p.src := by rw [(mark_facts _ .block).1, (settle_src _ _).1]
    rw [hsrc, g1, g3] at k1
    simp only [List.map_cons, List.cons_append, List.cons.injEq] at hl
    have hf := hok first (by simp)
    have hq : quoted l = c! '>' :: c! ' ' :: l := by
      unfold quoted; rw [if_neg (by simp [hlw])]
    have hflen : (c! '>' :: c! ' ' :: l).length = first.stop - first.start := by
      rw [← hq, ← hl.1]; exact Block.sliceOf_length hf
    simp only [List.length_cons] at hflen
    have hsp : p.src[first.start + 1]? = some (c! ' ') := by
      have h1 : (textAt p.src first)[1]? = some (c! ' ') := by rw [hl.1, hq]; rfl
      unfold textAt at h1
      rw [List.getElem?_take_of_lt (by omega), List.getElem?_drop] at h1
      exact h1
    have hrl : L.length ≤ rest.length := by
      have := congrArg List.length hl.2
      simp at this; omega
    have hls' : b.ls = ⟨first.start + 1 + 1, first.stop⟩ :: rest.take L.length := by
      simp only [Block.skipOuter] at g5
      rw [if_pos (by omega)] at g5
      simp only [idx, hsp, Bind.bind, Except.bind] at g5
      rw [if_pos (by simp)] at g5
      cases g5
      simp only [Block.skipFence, Except.ok.injEq] at g6
      rw [← g6]
      simp
    rw [hls', Block.mapTail] at k1
    obtain ⟨ss, m1, m2⟩ := bind_ok k1
    cases m2
    have hrok : ∀ x ∈ rest.take L.length, Block.SpanOk p.src x := fun x hx => hok x (List.mem_cons_of_mem _ (List.mem_of_mem_take hx))
    have htexts : ((⟨first.start + 1 + 1, first.stop⟩ : Span) :: ss).map (textAt p.src) = blkLines bs := by
      rw [List.map_cons, mapLines_quote hrok (by rw [List.map_take, hl.2, List.take_append_of_le_length (by simp)]; exact List.take_of_length_le (by simp)) m1, hbl]
      congr 1
      have := textAt_drop p.src first 2
      rw [hl.1, hq] at this
      exact this
    have hkok : ∀ x ∈ (⟨first.start + 1 + 1, first.stop⟩ : Span) :: ss, Block.SpanOk p.src x := by
      intro x hx
      rcases List.mem_cons.1 hx with rfl | hx
      · refine hf.advance (n := 2) (by omega) ?_
        have : Block.sliceOf p.src first = c! '>' :: c! ' ' :: l := by rw [← hq]; exact hl.1
        have hb := (Block.sliceOf_bd_safe hf hs).2
        rw [this] at hb ⊢
        exact hb.2.1 (by decide)
      · exact mapLines_ok hs rfl hrok m1 x hx
    have hnear : Near (mark (settle p b.spanStart.start) .block) := ((hc _).mark .block).near
    obtain ⟨hE, hg⟩ := hkids false _ _ _ 0 (by exact hsrc) hkok (by simpa [blankLine] using htexts) (.inl rfl) (hnear.enter _ _) k2
    obtain ⟨E, al', e1, hp3⟩ := container_end hnear hE hg k3
    refine ⟨by rw [hn, g4, hqlines]; simp, b.spanStart.start, _, al'.1, ⟨E, ⟨b.spanStart, b.spanEnd, rfl⟩, e1⟩, ?_⟩
    rw [hp2, hp3]
    rfl

theorem div_ok {m : Nat} {cls : Bytes} {bs : List Blk} (h : (Blk.div m cls bs).Ok) (hkids : Kids src bs false) (hp : p.src = src) (hok : ∀ l ∈ ls, Block.SpanOk src l)
    (hl : ls.map (textAt src) = (Blk.div m cls bs).lines ++ R) (hc : Quiet p) (after : Bool)
    (hb : Block.TP.parseBlock fuel p ls top = .ok (p', n)) :
    n = (Blk.div m cls bs).lines.length ∧ ∃ pos E a, Body src (.div m cls bs) after E ∧ p' = al (app (marks (settle p pos) ((Blk.div m cls bs).trace after)) E) (a, none) := by
  subst hp
  simp only [Blk.Ok] at h
  obtain ⟨h1, h2, hbs, h4⟩ := h
  simp only [Blk.lines] at hl ⊢
  cases ls with
  | nil => simp at hl
  | cons first rest =>
    obtain ⟨f, b, rfl, hprep, hn, hparts⟩ := parseBlock_parts hb
    have hpz : (blkLines bs).map (padded 0) = blkLines bs := by
      have : padded 0 = id := funext padded_zero
      rw [this, List.map_id]
    have hruns := blks_runs bs hbs (n := m) (cls := cls) h4 0
    rw [hpz] at hruns
    obtain ⟨g1, g2, g3, g4, ls', g5, g6⟩ := prepare_parts hs hok (A := blkLines bs ++ [colons m ++ [c! '\n']]) hl
      (k := .fenced 0 m .div cls false none) (k' := .fenced 0 m .div cls true none) (k3 := .fenced 0 m .div cls true none) (a := 0) (m := (colons m ++ c! ' ' :: cls ++ [c! '\n']).length)
      (fun r _ _ hr => div_opens h1 h2 hr)
      (Runs.append hruns ⟨_, fun r hb hs hr => by
          obtain ⟨next, sp, e1, e2⟩ := div_continues hr
          have := div_closes h1 e1
          simp only [Prod.mk.injEq] at this
          rw [e2, this.1]
          simp [Block.fenceContinues], rfl⟩)
      (Stops.as (by cases R with
        | nil => trivial
        | cons _ _ => intro r _ _ hr; cases hr; rfl)) (by simp) hprep
    obtain ⟨blk, p2, hmk, hemit, hp2⟩ := hparts (by rw [g1]; rfl) (by rw [g1]; simp)
    rw [g1] at hmk hemit
    simp only [Block.mkBlock, Except.ok.injEq] at hmk
    subst hmk
    simp only [reduceCtorEq, ↓reduceIte] at hemit
    simp only [Block.TP.emit] at hemit
    simp only [reduceCtorEq, ↓reduceIte] at hemit
    obtain ⟨q, kls, p3, k1, k0, k2, k3⟩ := parseContainer_parts (by simp) hemit
    have e0 := openList_other (by rw [g1]; rfl) k0
    subst e0
    have hsrc : (mark (settle p b.spanStart.start) .block).src = p.src := by rw [(mark_facts _ .block).1, (settle_src _ _).1]
    rw [hsrc, g1] at k1
    have hrest : rest.map (textAt p.src) = blkLines bs ++ ([colons m ++ [c! '\n']] ++ R) := by
      have := congrArg List.tail hl
      simpa using this
    have hlen : (blkLines bs).length + 1 ≤ rest.length := by
      have := congrArg List.length hrest
      simp at this; omega
    simp only [Block.skipOuter, Except.ok.injEq] at g5
    subst g5
    have hbls : b.ls = rest.take (blkLines bs).length := skipFence_closed hlen (by simpa using g6)
    have hkl : kls = b.ls := by
      cases hb2 : b.ls with
      | nil => rw [hb2] at k1; cases k1; rfl
      | cons x xs =>
        rw [hb2, Block.mapTail] at k1
        obtain ⟨ss, m1, m2⟩ := bind_ok k1
        cases m2
        rw [mapLines_fenced m1]
    have htexts : kls.map (textAt p.src) = blkLines bs := by
      rw [hkl, hbls, List.map_take, hrest]; simp
    have hkok : ∀ x ∈ kls, Block.SpanOk p.src x := by
      intro x hx
      rw [hkl, hbls] at hx
      exact hok x (List.mem_cons_of_mem _ (List.mem_of_mem_take hx))
    have hnear : Near (mark (settle p b.spanStart.start) .block) := ((hc _).mark .block).near
    obtain ⟨hE, hg⟩ := hkids false _ _ _ 0 (by exact hsrc) hkok (by simpa [blankLine] using htexts) (.inl rfl) (hnear.enter _ _) k2
    obtain ⟨E, al', e1, hp3⟩ := container_end hnear hE hg k3
    refine ⟨by rw [hn, g4]; simp, b.spanStart.start, _, al'.1, ⟨E, ⟨b.spanStart, b.spanEnd, rfl⟩, e1⟩, ?_⟩
    rw [hp2, hp3]
    rfl

theorem foot_ok {label : Bytes} {bs : List Blk} {after : Bool} (h : (Blk.foot label bs).Ok) (hkids : Kids src bs after) (hp : p.src = src) (hok : ∀ l ∈ ls, Block.SpanOk src l)
    (hl : ls.map (textAt src) = (Blk.foot label bs).lines ++ (blankLine after ++ R)) (hR : Follow after R) (hc : Quiet p)
    (hb : Block.TP.parseBlock fuel p ls top = .ok (p', n)) :
    n = ((Blk.foot label bs).lines ++ blankLine after).length ∧
      ∃ pos E a, Body src (.foot label bs) after E ∧ p' = al (app (marks (settle p pos) ((Blk.foot label bs).trace after)) E) (a, none) := by
  subst hp
  simp only [Blk.Ok] at h
  obtain ⟨hlab, hst, hbs, -⟩ := h
  obtain ⟨c, cs, L, hbl, hc1, hc2⟩ := item_cons hst hbs
  simp only [Blk.lines, hbl, itemOf, List.cons_append] at hl ⊢
  have hpos : 0 < (footLabel label).length := by simp [footLabel]
  cases ls with
  | nil => simp at hl
  | cons first rest =>
    obtain ⟨f, b, rfl, hprep, hn, hparts⟩ := parseBlock_parts hb
    obtain ⟨lb1, hlb1, hrun⟩ := item_runs_blank (indents_foot label) hpos false L after
    obtain ⟨lb2, hstop⟩ := item_stops (indents_foot label) hR hlb1
    rw [← List.append_assoc] at hl
    obtain ⟨g1, g2, g3, g4, ls', g5, g6⟩ := prepare_parts hs hok hl (k := .definition 0 true label false) (a := 0) (m := (footLabel label).length)
      (fun r _ _ hr => foot_ident hlab hr) hrun hstop (by simp) hprep
    obtain ⟨blk, p2, hmk, hemit, hp2⟩ := hparts (by rw [g1]; rfl) (by rw [g1]; simp)
    rw [g1] at hmk hemit
    simp only [Block.mkBlock, Except.ok.injEq] at hmk
    subst hmk
    simp only [reduceCtorEq, ↓reduceIte] at hemit
    simp only [Block.TP.emit] at hemit
    simp only [reduceCtorEq, ↓reduceIte] at hemit
    obtain ⟨q, kls, p3, k1, k0, k2, k3⟩ := parseContainer_parts (by simp) hemit
    have e0 := openList_other (by rw [g1]; rfl) k0
    subst e0
    have hsrc : (mark (settle p b.spanStart.start) .block).src = p.src := by rw [(mark_facts _ .block).1, (settle_src _ _).1]
    rw [hsrc, g1, g3] at k1
    have hl1 : textAt p.src first = footLabel label ++ c! ' ' :: c :: cs := by simpa using congrArg List.head? hl
    have hl2 : rest.map (textAt p.src) = (L.map (padded (footLabel label).length) ++ blankLine after) ++ R := by simpa using congrArg List.tail hl
    have hf := hok first (by simp)
    simp only [Block.skipOuter, Except.ok.injEq] at g5
    subst g5
    simp only [Block.skipFence, Except.ok.injEq] at g6
    rw [← g6, Block.mapTail] at k1
    obtain ⟨ss, m1, m2⟩ := bind_ok k1
    cases m2
    have hrok : ∀ x ∈ rest.take (L.map (padded (footLabel label).length) ++ blankLine after).length, Block.SpanOk p.src x :=
      fun x hx => hok x (List.mem_cons_of_mem _ (List.mem_of_mem_take hx))
    have hss2 : ss.map (textAt p.src) = L ++ blankLine after := by
      refine mapLines_item (indents_foot label) hrok ?_ m1
      rw [List.map_take, hl2, List.take_left, List.map_append, blankLine_pad]
    have htexts : ((⟨first.start + (footLabel label).length, first.stop⟩ : Span) :: ss).map (textAt p.src) = lead 1 (blkLines bs ++ blankLine after) := by
      rw [hbl, List.map_cons, hss2, textAt_drop, hl1, List.drop_left]
      rfl
    have hlen := Block.sliceOf_length hf
    have hx : Block.sliceOf p.src first = footLabel label ++ c! ' ' :: c :: cs := hl1
    have hkok : ∀ x ∈ (⟨first.start + (footLabel label).length, first.stop⟩ : Span) :: ss, Block.SpanOk p.src x := by
      intro y hy
      rcases List.mem_cons.1 hy with rfl | hy
      · rw [hx, List.length_append, List.length_cons] at hlen
        refine hf.advance (n := (footLabel label).length) (by omega) ?_
        rw [hx, List.drop_left]
        simp; decide
      · exact mapLines_ok hs rfl hrok m1 y hy
    have hnear : Near (mark (settle p b.spanStart.start) .block) := ((hc _).mark .block).near
    obtain ⟨hE, hg⟩ := hkids false _ _ _ 1 (by exact hsrc) hkok htexts (.inr hst) (hnear.enter _ _) k2
    obtain ⟨E, al', e1, hp3⟩ := container_end hnear hE hg k3
    refine ⟨by rw [hn, g4]; simp, b.spanStart.start, _, al'.1, ⟨E, ⟨b.spanStart, b.spanEnd, rfl⟩, e1⟩, ?_⟩
    rw [hp2, hp3]
    rfl

end

end Jotdown.Round
