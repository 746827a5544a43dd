import Verif.Proofs.RoundTree
import Verif.Proofs.RoundTerm
/-! # Round trip: lists, and all blocks -/
namespace Jotdown.Round
open Jotdown Jotdown.Notation

/-! ## An item -/

theorem parseBlock_item {p p' : Block.TP} {fuel n : Nat} {first : Span} {rest : List Span} {top : Bool}
    (h : Block.TP.parseBlock fuel p (first :: rest) top = .ok (p', n)) :
    ∃ f b, fuel = f + 1 ∧ Block.prepare p.src first rest = .ok b ∧ n = b.lineCount ∧
      (b.kind ≠ .atom .attributes → ∃ q blk p2, p.beforeBlock b = .ok q ∧
        Block.mkBlock q.src b.kind top b.spanStart.start = .ok blk ∧ q.emit (fun c => Block.TP.parseContainer f q c b) blk b = .ok p2 ∧ p' = bare p2) := by
  cases fuel with
  | zero => simp [Block.TP.parseBlock] at h
  | succ f =>
    rw [Block.TP.parseBlock] at h
    obtain ⟨b, h1, g1⟩ := bind_ok h
    obtain ⟨p1, h2, g2⟩ := bind_ok g1
    obtain ⟨blk, h3, g3⟩ := bind_ok g2
    obtain ⟨p2, h4, g4⟩ := bind_ok g3
    obtain ⟨p3, h5, g5⟩ := bind_ok g4
    cases g5
    exact ⟨f, b, rfl, h1, rfl, fun ha => ⟨p1, blk, p2, h2, h3, h4, setAttrStart_bare ha h5⟩⟩

theorem pend_near {q : Block.TP} (hq : Calm q) (ty0 tyk : Block.ListType) (s : Span) (t pb pl : Bool) (E : List Block.Event) : Near (pend q ty0 tyk s t pb pl E) := by
  refine ⟨?_, ?_⟩
  · intro l ls hl
    simp only [pend, List.cons.injEq] at hl
    obtain ⟨rfl, -⟩ := hl
    simp [pend]
  · intro i hi
    simp only [pend, List.mem_cons] at hi
    simp only [pend, List.length_append, List.length_cons]
    rcases hi with rfl | hi
    · omega
    · have := hq.opn i hi
      omega

/-- What the state is when an item with this label begins. -/
def Begins (src : Bytes) (p : Block.TP) (lb : Label) (q : Block.TP) (ty0 : Block.ListType) (S : Span → Prop) (x : Bool × Bool × Bool) (E0 : List Block.Event) : Prop :=
  ∀ (b : Block.Prepared) (y : Bool) (p1 : Block.TP), b.kind = .listItem 0 lb.ty y → p.beforeBlock b = .ok p1 →
    p1.src = src ∧ ∀ p2, p1.openList b.kind b.spanStart.start = .ok p2 → ∃ s, S s ∧ p2 = pend q ty0 lb.ty s x.1 x.2.1 x.2.2 E0

/-- The events of a block do not start with a blank line. -/
theorem Body_head {src : Bytes} (b : Blk) (a : Bool) {E : List Block.Event} (h : Body src b a E) : ∃ e E', E = e :: E' ∧ e.kind ≠ .atom .blankline := by
  cases b <;> simp only [Body] at h
  case para is => obtain ⟨s, e, sps, rfl, -⟩ := h; exact ⟨_, _, rfl, by simp⟩
  case brk => obtain ⟨s, rfl⟩ := h; exact ⟨_, _, rfl, by simp⟩
  case code => obtain ⟨s, e, sps, rfl, -⟩ := h; exact ⟨_, _, rfl, by simp⟩
  case quote => obtain ⟨E', ⟨s, e, rfl⟩, -⟩ := h; exact ⟨_, _, rfl, by simp⟩
  case div => obtain ⟨E', ⟨s, e, rfl⟩, -⟩ := h; exact ⟨_, _, rfl, by simp⟩
  case list => obtain ⟨E', ⟨s, e, rfl⟩, -⟩ := h; exact ⟨_, _, rfl, by simp⟩
  case foot => obtain ⟨E', ⟨s, e, rfl⟩, -⟩ := h; exact ⟨_, _, rfl, by simp⟩
  case table => obtain ⟨E', ⟨s, e, rfl⟩, -⟩ := h; exact ⟨_, _, rfl, by simp⟩
  case attr => obtain ⟨s, E', rfl, -⟩ := h; exact ⟨_, _, rfl, by simp⟩

theorem ShowsL_head {src : Bytes} (bs : List Blk) (a : Bool) {E : List Block.Event} (h : ShowsL src bs a E) : ∀ d rest, E = d :: rest → d.kind ≠ .atom .blankline := by
  cases bs with
  | nil => simp only [ShowsL] at h; subst h; intro d rest h; cases h
  | cons b bs =>
    simp only [ShowsL] at h
    obtain ⟨E1, E2, E3, rfl, hb, -⟩ := h
    obtain ⟨e, E', rfl, he⟩ := Body_head b _ hb
    intro d rest hd
    simp only [List.cons_append, List.cons.injEq] at hd
    rw [← hd.1]; exact he

theorem BlankShows.blanks {a : Bool} {B : List Block.Event} (h : BlankShows a B) : ∀ b ∈ B, b.kind = .atom .blankline := by
  cases a with
  | false => simp only [BlankShows, Bool.false_eq_true, ↓reduceIte] at h; subst h; simp
  | true =>
    simp only [BlankShows, ↓reduceIte] at h
    obtain ⟨s, rfl⟩ := h
    simp

/-- The end of an item of a description list. -/
theorem desc_end {src : Bytes} {q p2 p' : Block.TP} {s x sd e : Span} {it : List Blk} {a : Bool} (hst : startsPara it = true) (hq : Near q) (hE : Ends (endsList it) p2)
    (hg : Goes ((app q [⟨.enter (.leaf .descriptionTerm), s⟩, ⟨.exit (.leaf .descriptionTerm), x⟩]).enter (.container (.listItem .description)) sd) (traceL it a) (ShowsL src it a) p2)
    (h : p2.endContainer (.listItem .description) e (some (q.events.length, q.events.length + 2, q.open_.length)) = .ok p') :
    ∃ E a', ItemShows src .desc it a E ∧ p' = al (app (marks q (traceL it a ++ endTrace it)) E) a' := by
  cases it with
  | nil => simp [startsPara] at hst
  | cons b bs =>
    cases b <;> simp only [startsPara, Blk.isPara, Bool.false_eq_true] at hst
    rename_i is
    obtain ⟨sl, el, d, sps, B, D, a', ⟨h1, h2, h3⟩, rfl⟩ := term_end (Sh2 := fun sps B D => sps.map (textAt src) = splitNl (prints is) ∧ BlankShows (!bs.isEmpty || a) B ∧ ShowsL src bs a D) hq hE hg (by
      intro E hs
      simp only [ShowsL, Body] at hs
      obtain ⟨E1, E2, E3, rfl, ⟨s, e, sps, rfl, ht⟩, h2, h3⟩ := hs
      simp only [Blk.keeps, Bool.not_false, Bool.and_true] at h2
      exact ⟨s, e, sps, E2, E3, rfl, h2.blanks, ShowsL_head bs a h3, ht, h2, h3⟩) h
    refine ⟨_, a', ⟨D, _, ⟨⟨d, d⟩, e, rfl⟩, .inr ⟨rfl, s, x, _, ?_, ⟨s, el, sps, B, rfl, h1, h2⟩, h3⟩⟩, rfl⟩
    simp [termShape, leafEvents, Label.itemKind]

theorem item_ok {src : Bytes} (hs : Safe src) {p p' : Block.TP} {fuel n : Nat} {top : Bool} {R : List Bytes} {ls : List Span}
    {lb : Label} {it : List Blk} {a : Bool} (hlb : lb.Ok) (hst : startsPara it = true) (hit : BlksOk it) (hkids : Kids src it a)
    (hp : p.src = src) (hok : ∀ l ∈ ls, Block.SpanOk src l) (hl : ls.map (textAt src) = itemOf lb.text (blkLines it) ++ (blankLine a ++ R)) (hR : Follow a R)
    {q : Block.TP} {ty0 : Block.ListType} {S : Span → Prop} {x : Bool × Bool × Bool} {E0 : List Block.Event} (hq : Calm q) (hqs : q.src = src) (hbe : Begins src p lb q ty0 S x E0)
    (hb : Block.TP.parseBlock fuel p ls top = .ok (p', n)) :
    n = (itemOf lb.text (blkLines it) ++ blankLine a).length ∧ ∃ s E al', S s ∧ ItemShows src lb it a E ∧
      p' = pend (al q (al', none)) ty0 lb.ty s (moves x (traceL it a ++ endTrace it)).1 (moves x (traceL it a ++ endTrace it)).2.1 (moves x (traceL it a ++ endTrace it)).2.2 (E0 ++ E) := by
  subst hp
  obtain ⟨c, cs, L, hbl, hc1, hc2⟩ := item_cons hst hit
  rw [hbl] at hl ⊢
  simp only [itemOf, List.cons_append] at hl ⊢
  cases ls with
  | nil => simp at hl
  | cons first rest =>
    obtain ⟨f, b, rfl, hprep, hn, hparts⟩ := parseBlock_item hb
    obtain ⟨lb1, hlb1, hrun⟩ := item_runs_blank (indents_item lb.ty) (label_pos hlb) false L a
    obtain ⟨lb2, hstop⟩ := item_stops (indents_item lb.ty) hR hlb1
    rw [← List.append_assoc] at hl
    obtain ⟨g1, g2, g3, g4, ls', g5, g6⟩ := prepare_parts hs hok hl (k := .listItem 0 lb.ty false) (a := 0) (m := lb.text.length)
      (fun r _ hsl hr => label_ident hlb hc2 hsl hr) hrun hstop (by simp) hprep
    obtain ⟨q1, blk, p2, hbef, hmk, hemit, hp2⟩ := hparts (by rw [g1]; simp)
    obtain ⟨hq1, hopen⟩ := hbe b lb2 q1 g1 hbef
    have hl1 : textAt p.src first = lb.text ++ c! ' ' :: c :: cs := by simpa using congrArg List.head? hl
    have hl2 : rest.map (textAt p.src) = (L.map (padded lb.text.length) ++ blankLine a) ++ R := by simpa using congrArg List.tail hl
    have hf := hok first (by simp)
    have hss : b.spanStart.start = first.start := by rw [g2]; simp
    rw [g1, hq1, hss] at hmk
    have hblk := item_block hf hl1 hmk
    subst hblk
    simp only [Block.TP.emit] at hemit
    rw [if_neg (by simp)] at hemit
    obtain ⟨q2, kls, p3, k1, k0, k23⟩ : ∃ q2 kls p3, Block.mapTail (Block.containerLine q1.src b.kind b.outerLen) b.ls = .ok kls ∧ q1.openList b.kind b.spanStart.start = .ok q2 ∧
        ((lb.isDesc = false ∧ Loop false (q2.enter (.container (.listItem lb.itemKind)) b.spanStart) kls p3 ∧ p3.endContainer (.listItem lb.itemKind) b.spanEnd none = .ok p2) ∨
        (lb = .desc ∧ ∃ s x sd, Loop false ((app q2 [⟨.enter (.leaf .descriptionTerm), s⟩, ⟨.exit (.leaf .descriptionTerm), x⟩]).enter (.container (.listItem .description)) sd) kls p3 ∧
          p3.endContainer (.listItem .description) b.spanEnd (some (q2.events.length, q2.events.length + 2, q2.open_.length)) = .ok p2)) := by
      cases hd : lb.isDesc with
      | false =>
        obtain ⟨q2, kls, p3, k1, k0, k2, k3⟩ := parseContainer_parts (by cases lb <;> simp_all [Label.itemKind, Label.isDesc]) hemit
        exact ⟨q2, kls, p3, k1, k0, .inl ⟨rfl, k2, k3⟩⟩
      | true =>
        obtain rfl : lb = .desc := by cases lb <;> simp_all [Label.isDesc]
        obtain ⟨q2, kls, p3, s, x, sd, k1, k0, k2, k3⟩ := parseContainer_desc hemit
        exact ⟨q2, kls, p3, k1, k0, .inr ⟨rfl, s, x, sd, k2, k3⟩⟩
    obtain ⟨s, hS, rfl⟩ := hopen q2 k0
    rw [hq1, g1, g3] at k1
    simp only [Block.skipOuter, Except.ok.injEq] at g5
    subst g5
    simp only [Block.skipFence, Except.ok.injEq] at g6
    rw [← g6, Block.mapTail] at k1
    obtain ⟨ss, m1, m2⟩ := bind_ok k1
    cases m2
    have hrl : (L.map (padded lb.text.length) ++ blankLine a).length ≤ rest.length := by
      have := congrArg List.length hl2
      rw [List.length_append, List.length_map] at this
      omega
    have hrok : ∀ x ∈ rest.take (L.map (padded lb.text.length) ++ blankLine a).length, Block.SpanOk p.src x :=
      fun x hx => hok x (List.mem_cons_of_mem _ (List.mem_of_mem_take hx))
    have hss2 : ss.map (textAt p.src) = L ++ blankLine a := by
      refine mapLines_item (indents_item lb.ty) hrok ?_ m1
      rw [List.map_take, hl2, List.take_left, List.map_append, blankLine_pad]
    have htexts : ((⟨first.start + lb.text.length, first.stop⟩ : Span) :: ss).map (textAt p.src) = lead 1 (blkLines it ++ blankLine a) := by
      rw [hbl, List.map_cons, hss2, textAt_drop, hl1, List.drop_left]
      rfl
    have hlen := Block.sliceOf_length hf
    have hx : Block.sliceOf p.src first = lb.text ++ c! ' ' :: c :: cs := hl1
    have hkok : ∀ x ∈ (⟨first.start + lb.text.length, first.stop⟩ : Span) :: ss, Block.SpanOk p.src x := by
      intro y hy
      rcases List.mem_cons.1 hy with rfl | hy
      · rw [hx, List.length_append, List.length_cons] at hlen
        refine hf.advance (n := lb.text.length) (by omega) ?_
        rw [hx, List.drop_left]
        simp; decide
      · exact mapLines_ok hs rfl hrok m1 y hy
    have hnear := pend_near hq ty0 lb.ty s x.1 x.2.1 x.2.2 E0
    obtain ⟨E, al', e1, hp3⟩ : ∃ E al', ItemShows p.src lb it a E ∧ p2 = al (app (marks (pend q ty0 lb.ty s x.1 x.2.1 x.2.2 E0) (traceL it a ++ endTrace it)) E) al' := by
      rcases k23 with ⟨hd, k2, k3⟩ | ⟨rfl, sp, xp, sd, k2, k3⟩
      · obtain ⟨hE, hg⟩ := hkids false _ _ _ 1 (by exact hqs) hkok htexts (.inr hst) (hnear.enter _ _) k2
        obtain ⟨E, al', e1, hp3⟩ := container_end hnear hE hg k3
        exact ⟨_, al', ⟨E, _, ⟨b.spanStart, b.spanEnd, rfl⟩, .inl ⟨hd, rfl, e1⟩⟩, hp3⟩
      · obtain ⟨hE, hg⟩ := hkids false _ _ _ 1 (by exact hqs) hkok htexts (.inr hst) ((hnear.app _).enter _ _) k2
        exact desc_end hst hnear hE hg k3
    refine ⟨by rw [hn, g4]; simp, s, E, al'.1, hS, e1, ?_⟩
    rw [pend_marks, pend_app, pend_al] at hp3
    rw [hp2, hp3]
    rfl

/-! ## Items -/

/-- The first item of a list. -/
theorem begins_first {src : Bytes} {p : Block.TP} (hp : p.src = src) (hc : Calm p) (lb : Label) : Begins src p lb (mark p (.set false)) lb.ty (fun _ => True) (true, false, false) [] := by
  intro b y p1 hk hb
  have e := beforeBlock_first hc (by rw [hk]; rfl) hb
  subst e
  refine ⟨hp, ?_⟩
  intro p2 h2
  rw [hk] at h2
  have hc2 := hc.mark (.set false)
  have hsd : (mark p (.set false)).sameDepth = true := by
    unfold Block.TP.sameDepth
    split
    · rfl
    · rename_i l ls hl
      simpa using (hc2.lists l ls hl).1
  simp only [Block.TP.openList, hsd, ↓reduceIte, Block.TP.pushList] at h2
  split at h2
  · cases h2
    refine ⟨⟨b.spanStart.start, b.spanStart.start⟩, trivial, ?_⟩
    simp [pend, Block.TP.enter, mark]
  · cases h2

/-- The next item of a list. -/
theorem begins_next {src : Bytes} {q : Block.TP} {ty0 : Block.ListType} {s : Span} {x : Bool × Bool × Bool} {E : List Block.Event} {lb0 lk lb : Label} (h1 : lb0.like lk) (h2 : lb0.like lb)
    (hq : q.src = src) : Begins src (pend q ty0 lk.ty s x.1 x.2.1 x.2.2 E) lb q ty0 (· = s) (move x .block) E := by
  intro b y p1 hk hb
  have e := beforeBlock_next hk (like_continues h1 h2) hb
  subst e
  refine ⟨hq, ?_⟩
  intro p2 h2
  rw [hk] at h2
  simp only [Block.TP.openList, Block.TP.sameDepth, pend, List.length_cons, Nat.lt_irrefl, decide_false, Bool.false_eq_true, ↓reduceIte, Except.ok.injEq] at h2
  exact ⟨s, rfl, h2.symm⟩

/-- What may come after a block. -/
def Rest (after : Bool) (R : List Bytes) : Prop := R = [] ∨ (after = true ∧ ∃ l R', R = l :: R' ∧ Flush l)

/-- The lines after a block. -/
theorem plain_ok {src : Bytes} (hs : Safe src) {p p' : Block.TP} {top : Bool} {R : List Bytes} {ls : List Span} {j : Nat} (b : Blk) (h : b.Ok) (hnl : b.keeps = false) (after : Bool)
    (hp : p.src = src) (hok : ∀ l ∈ ls, Block.SpanOk src l) (hl : ls.map (textAt src) = lead j b.lines ++ (blankLine after ++ R)) (hq : Quiet p)
    (hblock : ∀ fuel p1 n, Block.TP.parseBlock fuel p ls top = .ok (p1, n) → n = b.lines.length ∧ ∃ pos E a, Body src b after E ∧ p1 = al (app (marks (settle p pos) (b.trace after)) E) (a, none))
    (hb : Loop top p ls p') :
    ∃ p1 ls1, Loop top p1 ls1 p' ∧ ls1.map (textAt src) = R ∧ (∀ l ∈ ls1, Block.SpanOk src l) ∧ (Calm p1 ∧ p1.attrStart = none) ∧
      Goes p (b.trace after ++ blankTrace (after && !b.keeps)) (fun E => ∃ E1 E2, E = E1 ++ E2 ∧ Body src b after E1 ∧ BlankShows (after && !b.keeps) E2) p1 := by
  obtain ⟨l0, L0, hcons, -⟩ := Blk.lines_cons b h
  have hne : ls ≠ [] := by
    rintro rfl
    rw [hcons] at hl
    simp [lead] at hl
  obtain ⟨fuel, p1, n, hpb, hloop⟩ := hb.block hne
  obtain ⟨rfl, pos, E, al', hbody, rfl⟩ := hblock fuel p1 n hpb
  have hl1 := hloop (by rw [hcons]; simp)
  have hlen : (lead j b.lines).length = b.lines.length := by rw [hcons]; rfl
  have htx : (ls.drop b.lines.length).map (textAt src) = blankLine after ++ R := by
    rw [List.map_drop, hl, ← hlen, List.drop_left]
  have hok1 : ∀ l ∈ ls.drop b.lines.length, Block.SpanOk src l := fun l hl => hok l (List.mem_of_mem_drop hl)
  have hc1 : Calm (al (app (marks (settle p pos) (b.trace after)) E) (al', none)) := (((hq pos).marks _).app _).al _
  have hp1 : (al (app (marks (settle p pos) (b.trace after)) E) (al', none)).src = src := by rw [al_src, app_src, (marks_facts _ _).1, (settle_src _ _).1, hp]
  rw [hnl]
  generalize ls.drop b.lines.length = ls1 at *
  cases after with
  | false =>
    refine ⟨_, ls1, hl1, by simpa [blankLine] using htx, hok1, ⟨hc1, rfl⟩, ?_⟩
    intro pos'
    refine ⟨pos, E, (al', none), ⟨E, [], by simp, hbody, rfl⟩, ?_⟩
    rw [hc1.settle]
    simp [blankTrace]
  | true =>
    simp only [blankLine, ↓reduceIte, List.singleton_append] at htx
    have hne1 : ls1 ≠ [] := by rintro rfl; simp at htx
    obtain ⟨fuel2, p2, n2, hpb2, hloop2⟩ := hl1.block hne1
    obtain ⟨rfl, s, a2, rfl⟩ := blank_ok hs hp1 hok1 htx hc1 hpb2
    refine ⟨_, ls1.drop 1, hloop2 (by simp), ?_, fun l hl => hok1 l (List.mem_of_mem_drop hl), ⟨((hc1.mark _).app _).al _, rfl⟩, ?_⟩
    · rw [List.map_drop, htx]; rfl
    · intro pos'
      refine ⟨pos, E ++ [⟨.atom .blankline, s⟩], (a2, none), ⟨E, _, rfl, hbody, ⟨s, rfl⟩⟩, ?_⟩
      rw [(((hc1.mark _).app _).al _).settle, mark_al, app_al, mark_app ((hq pos).marks _).near, app_app, marks_append]
      rfl

theorem lead_append {j : Nat} {A B : List Bytes} (h : A ≠ []) : lead j (A ++ B) = lead j A ++ B := by
  cases A with
  | nil => exact absurd rfl h
  | cons a A => rfl

theorem sepR {after : Bool} {R : List Bytes} (hR : Rest after R) : (blankLine after ++ R) = [] ∨ ∃ R', (blankLine after ++ R) = [c! '\n'] :: R' := by
  cases after with
  | true => exact .inr ⟨R, rfl⟩
  | false =>
    rcases hR with rfl | ⟨h, -⟩
    · exact .inl rfl
    · cases h

mutual
/-- A written block is parsed as such. -/
theorem block_ok (b : Blk) (h : b.Ok) {src : Bytes} (hs : Safe src) {p p' : Block.TP} {top : Bool} {R : List Bytes} {ls : List Span} {j : Nat} (hj : j = 0 ∨ b.isPara = true) (after : Bool)
    (hp : p.src = src) (hok : ∀ l ∈ ls, Block.SpanOk src l) (hl : ls.map (textAt src) = lead j b.lines ++ (blankLine after ++ R)) (hR : Rest after R)
    {e : Bool} (he : Ends e p) (hbe : e = true → b.begins = false) (hb : Loop top p ls p') :
    ∃ p1 ls1, Loop top p1 ls1 p' ∧ ls1.map (textAt src) = R ∧ (∀ l ∈ ls1, Block.SpanOk src l) ∧ (Ends b.isList p1 ∧ p1.attrStart = none) ∧
      Goes p (b.trace after ++ blankTrace (after && !b.keeps)) (fun E => ∃ E1 E2, E = E1 ++ E2 ∧ Body src b after E1 ∧ BlankShows (after && !b.keeps) E2) p1 := by
  cases b with
  | para is => exact plain_ok hs _ h rfl after hp hok hl he.quiet (fun fuel p1 n hpb => (para_ok hs h hp hok hl (sepR hR) he.quiet after hpb)) hb
  | brk =>
    obtain rfl : j = 0 := by rcases hj with h | h; exact h; cases h
    rw [lead_zero] at hl
    exact plain_ok hs _ h rfl after hp hok (j := 0) (by rw [lead_zero]; exact hl) he.quiet (fun fuel p1 n hpb => (brk_ok hs hp hok hl he.quiet after hpb)) hb
  | code m lang cs =>
    obtain rfl : j = 0 := by rcases hj with h | h; exact h; cases h
    rw [lead_zero] at hl
    exact plain_ok hs _ h rfl after hp hok (j := 0) (by rw [lead_zero]; exact hl) he.quiet (fun fuel p1 n hpb => (code_ok hs h hp hok hl he.quiet after hpb)) hb
  | table cap L =>
    obtain rfl : j = 0 := by rcases hj with h | h; exact h; cases h
    rw [lead_zero] at hl
    exact plain_ok hs _ h rfl after hp hok (j := 0) (by rw [lead_zero]; exact hl) he.quiet (fun fuel p1 n hpb => table_ok hs h hp hok hl hR he.quiet hpb) hb
  | quote bs =>
    obtain rfl : j = 0 := by rcases hj with h | h; exact h; cases h
    rw [lead_zero] at hl
    have hk : Kids src bs false := by
      intro top p p' ls j h1 h2 h3 h4 h5 h6
      simp only [Blk.Ok] at h
      have := kids_ok bs h.2 hs h4 false (by simp) h1 h2 h3 (e := false) h5 (by simp) h6
      cases bs <;> exact ⟨this.1, this.2.2⟩
    exact plain_ok hs _ h rfl after hp hok (j := 0) (by rw [lead_zero]; exact hl) he.quiet (fun fuel p1 n hpb => quote_ok hs h hk hp hok hl (sepR hR) he.quiet after hpb) hb
  | div m cls bs =>
    obtain rfl : j = 0 := by rcases hj with h | h; exact h; cases h
    rw [lead_zero] at hl
    have hk : Kids src bs false := by
      intro top p p' ls j h1 h2 h3 h4 h5 h6
      simp only [Blk.Ok] at h
      have := kids_ok bs h.2.2.1 hs h4 false (by simp) h1 h2 h3 (e := false) h5 (by simp) h6
      cases bs <;> exact ⟨this.1, this.2.2⟩
    exact plain_ok hs _ h rfl after hp hok (j := 0) (by rw [lead_zero]; exact hl) he.quiet (fun fuel p1 n hpb => div_ok hs h hk hp hok hl he.quiet after hpb) hb
  | foot label bs =>
    obtain rfl : j = 0 := by rcases hj with h | h; exact h; cases h
    rw [lead_zero] at hl
    have hk : Kids src bs after := by
      intro top p p' ls j h1 h2 h3 h4 h5 h6
      simp only [Blk.Ok] at h
      have hne : bs ≠ [] := by
        rintro rfl
        exact absurd h.2.1 (by simp [startsPara])
      have := kids_ok bs h.2.2.1 hs h4 after (fun _ => hne) h1 h2 h3 (e := false) h5 (by simp) h6
      cases bs with
      | nil => exact absurd rfl hne
      | cons _ _ => exact ⟨this.1, this.2.2⟩
    obtain ⟨l0, L0, hcons, -⟩ := Blk.lines_cons _ h
    have hne : ls ≠ [] := by
      rintro rfl
      rw [hcons] at hl
      simp at hl
    obtain ⟨fuel, p1, n, hpb, hloop⟩ := hb.block hne
    obtain ⟨rfl, pos, E, al', hbody, rfl⟩ := foot_ok hs h hk hp hok hl (by
      rcases hR with rfl | ⟨h1, l, R', rfl, hf⟩
      · exact .inl rfl
      · exact .inr ⟨l, R', rfl, .inr ⟨h1, hf⟩⟩) he.quiet hpb
    have hc1 : Calm (al (app (marks (settle p pos) ((Blk.foot label bs).trace after)) E) (al', none)) := (((he.quiet pos).marks _).app _).al _
    refine ⟨_, _, hloop (by rw [hcons]; simp), ?_, fun l hl => hok l (List.mem_of_mem_drop hl), ⟨hc1, rfl⟩, ?_⟩
    · rw [List.map_drop, hl, ← List.append_assoc, List.drop_left]
    · intro pos'
      refine ⟨pos, E, (al', none), ⟨E, [], by simp, hbody, by simp [BlankShows, Blk.keeps]⟩, ?_⟩
      rw [hc1.settle]
      simp [blankTrace, Blk.keeps]
  | list lbs tight items =>
    obtain rfl : j = 0 := by rcases hj with h | h; exact h; cases h
    rw [lead_zero] at hl
    have he' : e = false := by
      cases e with
      | false => rfl
      | true => have := hbe rfl; simp [Blk.begins] at this
    subst he'
    have hc : Calm p := he
    simp only [Blk.Ok] at h
    obtain ⟨hne, hlen, hlb, htight, hits⟩ := h
    cases lbs with
    | nil => cases items with
      | nil => exact absurd rfl hne
      | cons _ _ => simp at hlen
    | cons lb lbs =>
      obtain ⟨p1, ls1, tyk, s, E, al', g1, g2, g3, -, g4, g5⟩ := items_ok items hne hits hs (lb :: lbs) hlen lb (fun l hl => ⟨(hlb l hl).1, (hlb l hl).2 lb rfl⟩) tight after hp hok hl hR
        (hc.mark (.set false)) (by exact hp) (fun lb' h => by cases h; exact begins_first hp hc lb)
        rfl hb
      simp only [gapRun_ok htight] at g5
      refine ⟨p1, ls1, g1, g2, g3, ⟨⟨_, _, _, _, _, _, _, (hc.mark (.set false)).al (al', none), g5⟩, by rw [g5]; rfl⟩, ?_⟩
      intro pos
      refine ⟨0, _, (al', none), ⟨_, [], (List.append_nil _).symm, ⟨E, ⟨s, ⟨pos, pos⟩, rfl⟩, g4⟩, by simp [BlankShows, Blk.keeps]⟩, ?_⟩
      rw [g5, pend_close, hc.settle, mark_al, app_al]
      simp [Blk.trace, Blk.keeps, blankTrace, listTy, mark, isTight]
  | attr w is b =>
    obtain rfl : j = 0 := by rcases hj with h | h; exact h; cases h
    rw [lead_zero] at hl
    simp only [Blk.Ok] at h
    obtain ⟨hw, hsep, -, h⟩ := h
    simp only [Blk.lines, List.cons_append] at hl
    have hne : ls ≠ [] := by
      rintro rfl
      simp at hl
    obtain ⟨fuel, p1, n, hpb, hloop⟩ := hb.block hne
    obtain ⟨rfl, pos, s, al', htx, hsp, rfl, -⟩ := attr_ok hs hw hsep hp hok hl hpb
    have hc1 : Calm (al (app (mark (settle p pos) .block) [⟨.atom .attributes, s⟩]) al') := (((he.quiet pos).mark _).app _).al _
    have hg1 : Goes p [.block] (fun E => E = [⟨.atom .attributes, s⟩]) (al (app (mark (settle p pos) .block) [⟨.atom .attributes, s⟩]) al') := by
      intro pos'
      exact ⟨pos, _, al', rfl, by rw [hc1.settle]; rfl⟩
    obtain ⟨p2, ls2, k1, k2, k3, k4, k5⟩ := block_ok b h hs (j := 0) (.inl rfl) after (ls := ls.drop 1) (by rw [hg1.src]; exact hp) (fun l hl => hok l (List.mem_of_mem_drop hl))
      (by rw [lead_zero, List.map_drop, hl]; rfl) hR (e := false) hc1 (by simp) (hloop (by simp))
    refine ⟨p2, ls2, k1, k2, k3, k4, ?_⟩
    refine (Goes.trans he.quiet hg1 k5).imp ?_
    rintro E ⟨E0, E12, rfl, rfl, E1, E2, rfl, s1, s2⟩
    exact ⟨_, E2, rfl, ⟨s, E1, rfl, htx, hsp, s1⟩, s2⟩
/-- Written items are parsed as such. -/
theorem items_ok (items : List (List Blk)) (hne : items ≠ []) (h : ItemsOk items) {src : Bytes} (hs : Safe src) (lbs : List Label) (hlen : lbs.length = items.length) (lb0 : Label)
    (hlb : ∀ lb ∈ lbs, lb.Ok ∧ lb0.like lb) (tight after : Bool) {p p' : Block.TP} {top : Bool} {R : List Bytes} {ls : List Span}
    (hp : p.src = src) (hok : ∀ l ∈ ls, Block.SpanOk src l) (hl : ls.map (textAt src) = itemLines lbs tight items ++ (blankLine after ++ R)) (hR : Rest after R)
    {q : Block.TP} {ty0 : Block.ListType} {S : Span → Prop} {x : Bool × Bool × Bool} {E0 : List Block.Event} (hq : Calm q) (hqs : q.src = src)
    (hbe : ∀ lb, lbs.head? = some lb → Begins src p lb q ty0 S x E0)
    (hx : x.2.1 = false)
    (hb : Loop top p ls p') :
    ∃ p1 ls1 tyk s E al', Loop top p1 ls1 p' ∧ ls1.map (textAt src) = R ∧ (∀ l ∈ ls1, Block.SpanOk src l) ∧ S s ∧ ShowsI src lbs tight items after E ∧
      p1 = pend (al q (al', none)) ty0 tyk s (gapRun (x.1, x.2.2) (itemGaps tight items)).1 (after && !lastEnds items) (gapRun (x.1, x.2.2) (itemGaps tight items)).2 (E0 ++ E) := by
  cases items with
  | nil => exact absurd rfl hne
  | cons it its =>
    cases lbs with
    | nil => simp at hlen
    | cons lb lbs =>
      simp only [ItemsOk] at h
      obtain ⟨hst, hit, hits⟩ := h
      have hitne : it ≠ [] := by rintro rfl; simp [startsPara] at hst
      have hlbo := hlb lb (by simp)
      have hk : ∀ a, Kids src it a := by
        intro a top p p' ls j h1 h2 h3 h4 h5 h6
        have := kids_ok it hit hs h4 a (fun _ => hitne) h1 h2 h3 (e := false) h5 (by simp) h6
        cases it with
        | nil => exact absurd rfl hitne
        | cons _ _ => exact ⟨this.1, this.2.2⟩
      have hlsne : ls ≠ [] := by
        rintro rfl
        obtain ⟨c, cs, L, e, -⟩ := item_cons hst hit
        simp [itemLines, e, itemOf] at hl
      obtain ⟨fuel, p1, n, hpb, hloop⟩ := hb.block hlsne
      simp only [itemLines, itemSep_blank] at hl
      cases its with
      | nil =>
        simp only [List.length_cons, List.length_nil] at hlen
        obtain rfl : lbs = [] := by
          cases lbs with
          | nil => rfl
          | cons _ _ => simp at hlen
        have hl' : ls.map (textAt src) = itemOf lb.text (blkLines it) ++ (blankLine after ++ R) := by
          rw [hl]; simp [itemLines, blankLine]
        obtain ⟨rfl, s, E, al', hS, hSh, rfl⟩ := item_ok hs hlbo.1 hst hit (hk after) hp hok hl' (by
          rcases hR with rfl | ⟨h1, l, R', rfl, hf⟩
          · exact .inl rfl
          · exact .inr ⟨l, R', rfl, .inr ⟨h1, hf⟩⟩) hq hqs (hbe lb rfl) hpb
        have hmoves : moves x (traceL it after ++ endTrace it) = ((gapRun (x.1, x.2.2) (itemGaps tight [it])).1, after && !endsList it, (gapRun (x.1, x.2.2) (itemGaps tight [it])).2) := by
          obtain ⟨t, pb, pl⟩ := x
          obtain rfl : pb = false := hx
          rw [item_moves hitne hit]
          simp [itemGaps]
        refine ⟨_, _, lb.ty, s, E, al', hloop ?_, ?_, fun l hl => hok l (List.mem_of_mem_drop hl), hS, ⟨E, [], by simp, hSh, rfl⟩, ?_⟩
        · obtain ⟨c, cs, L, e, -⟩ := item_cons hst hit
          rw [e]; simp [itemOf]
        · rw [List.map_drop, hl', ← List.append_assoc, List.drop_left]
        · rw [hmoves]; rfl
      | cons it2 its2 =>
        have hl' : ls.map (textAt src) = itemOf lb.text (blkLines it) ++ (blankLine (!tight) ++ (itemLines lbs tight (it2 :: its2) ++ (blankLine after ++ R))) := by
          rw [hl]; simp
        have hlen2 : lbs.length = (it2 :: its2).length := by simpa using hlen
        obtain ⟨l2, L2, hl2, hm2⟩ := item_lines (tight := tight) (items := it2 :: its2) (by simp) hlen2 (fun lb hl => (hlb lb (by simp [hl])).1) hits
        obtain ⟨rfl, s, E, al', hS, hSh, rfl⟩ := item_ok hs hlbo.1 hst hit (hk (!tight)) hp hok hl' (.inr ⟨l2, _, by rw [hl2]; rfl, .inl hm2⟩) hq hqs (hbe lb rfl) hpb
        obtain ⟨p2, ls2, tyk, s', E2, al2, g1, g2, g3, rfl, g4, g5⟩ := items_ok (it2 :: its2) (by simp) hits hs lbs hlen2 lb0 (fun l hl => hlb l (by simp [hl])) tight after
          (p := pend (al q (al', none)) ty0 lb.ty s (moves x (traceL it (!tight) ++ endTrace it)).1 (moves x (traceL it (!tight) ++ endTrace it)).2.1 (moves x (traceL it (!tight) ++ endTrace it)).2.2 (E0 ++ E))
          (R := R) (by exact hqs) (fun l hl => hok l (List.mem_of_mem_drop hl))
          (by rw [List.map_drop, hl', ← List.append_assoc, List.drop_left]) hR (hq.al (al', none)) (by exact hqs)
          (fun lb2 h2 => begins_next hlbo.2 (hlb lb2 (List.mem_cons_of_mem _ (List.mem_of_mem_head? h2))).2 (by exact hqs))
          (by
            generalize moves x (traceL it (!tight) ++ endTrace it) = y
            obtain ⟨t, pb, pl⟩ := y
            rw [move_block])
          (hloop (by
            obtain ⟨c, cs, L, e, -⟩ := item_cons hst hit
            rw [e]; simp [itemOf]))
        refine ⟨p2, ls2, tyk, s', E ++ E2, al2, g1, g2, g3, hS, ⟨E, E2, rfl, hSh, g4⟩, ?_⟩
        rw [g5, al_al]
        obtain ⟨t, pb, pl⟩ := x
        obtain rfl : pb = false := hx
        rw [item_moves hitne hit, move_block]
        have e : itemGaps tight (it :: it2 :: its2) = blkGaps it false ++ ((!tight && !endsList it) :: itemGaps tight (it2 :: its2)) := rfl
        simp [lastEnds, e, gapRun_append, gapRun_cons]
/-- Written blocks are parsed as such. -/
theorem kids_ok (bs : List Blk) (h : BlksOk bs) {src : Bytes} (hs : Safe src) {p p' : Block.TP} {top : Bool} {ls : List Span} {j : Nat} (hj : j = 0 ∨ startsPara bs = true)
    (after : Bool) (ha : after = true → bs ≠ [])
    (hp : p.src = src) (hok : ∀ l ∈ ls, Block.SpanOk src l) (hl : ls.map (textAt src) = lead j (blkLines bs ++ blankLine after))
    {e : Bool} (he : Ends e p) (hbe : ∀ b bs', bs = b :: bs' → e = true → b.begins = false) (hb : Loop top p ls p') :
    Ends (if bs.isEmpty then e else endsList bs) p' ∧ (bs ≠ [] → p'.attrStart = none) ∧ Goes p (traceL bs after) (ShowsL src bs after) p' := by
  cases bs with
  | nil =>
    have : after = false := by
      cases after with
      | false => rfl
      | true => exact absurd rfl (ha rfl)
    subst this
    have hnil : ls = [] := by simpa [blkLines, blankLine, lead] using hl
    subst hnil
    have e := hb.done
    subst e
    exact ⟨he, fun h => absurd rfl h, fun pos => ⟨pos, [], ((settle p' pos).alignments, (settle p' pos).attrStart), rfl, by simp [traceL, al, app]⟩⟩
  | cons b bs =>
    simp only [BlksOk] at h
    obtain ⟨h1, h2, h3⟩ := h
    obtain ⟨l0, L0, hcons, -⟩ := Blk.lines_cons b h1
    have hj' : j = 0 ∨ b.isPara = true := hj
    cases bs with
    | nil =>
      have hl' : ls.map (textAt src) = lead j b.lines ++ (blankLine after ++ []) := by
        rw [hl, ← lead_append (by rw [hcons]; simp)]
        simp [blkLines, sep]
      obtain ⟨p1, ls1, g1, g2, g3, ⟨g4, g4a⟩, g5⟩ := block_ok b h1 hs hj' after hp hok hl' (.inl rfl) he (hbe b [] rfl) hb
      have hnil : ls1 = [] := by simpa using g2
      subst hnil
      have e := g1.done
      subst e
      refine ⟨g4, fun _ => g4a, ?_⟩
      simp only [traceL, List.isEmpty_nil, Bool.not_true, Bool.false_or, List.append_nil]
      refine g5.imp ?_
      rintro E ⟨E1, E2, rfl, s1, s2⟩
      exact ⟨E1, E2, [], by simp, s1, s2, rfl⟩
    | cons c bs =>
      have hl' : ls.map (textAt src) = lead j b.lines ++ (blankLine true ++ (blkLines (c :: bs) ++ blankLine after)) := by
        rw [hl, ← lead_append (by rw [hcons]; simp)]
        have : blkLines (b :: c :: bs) = b.lines ++ (sep (c :: bs) ++ blkLines (c :: bs)) := rfl
        rw [this, sep_blank]
        simp
      obtain ⟨l2, L2, e2, hf2⟩ := blkLines_cons (bs := c :: bs) (by simp) h3
      obtain ⟨p1, ls1, g1, g2, g3, ⟨g4, g4a⟩, g5⟩ := block_ok b h1 hs hj' true hp hok hl' (.inr ⟨rfl, l2, _, by rw [e2]; rfl, hf2⟩) he (hbe b _ rfl) hb
      obtain ⟨k1, k1a, k2⟩ := kids_ok (c :: bs) h3 hs (p := p1) (ls := ls1) (j := 0) (.inl rfl) after (by simp) (by rw [g5.src]; exact hp) g3 (by rw [lead_zero]; exact g2) g4
        (fun d ds hd hbl => by
          cases hd
          simpa [apart, hbl] using h2) g1
      refine ⟨k1, fun _ => k1a (by simp), ?_⟩
      have := (Goes.trans he.quiet g5 k2).imp (S2 := ShowsL src (b :: c :: bs) after) (by
        rintro E ⟨Ea, E3, rfl, ⟨E1, E2, rfl, s1, s2⟩, s3⟩
        exact ⟨E1, E2, E3, by simp, s1, s2, s3⟩)
      have et : traceL (b :: c :: bs) after = b.trace true ++ (blankTrace (true && !b.keeps) ++ traceL (c :: bs) after) := rfl
      rw [et, ← List.append_assoc]
      exact this
end

end Jotdown.Round
