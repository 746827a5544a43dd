import Verif.Proofs.RoundHead
/-! # Round trip: sections -/
namespace Jotdown.Round
open Jotdown Jotdown.Notation

/-! ## Blocks before a heading -/

/-- Written blocks are parsed as such, and then comes the rest. -/
theorem kids_rest (bs : List Blk) (hne : bs ≠ []) (h : BlksOk bs) {src : Bytes} (hs : Safe src) {p p' : Block.TP} {top : Bool} {R : List Bytes} {ls : List Span} (after : Bool)
    (hp : p.src = src) (hok : ∀ l ∈ ls, Block.SpanOk src l) (hl : ls.map (textAt src) = blkLines bs ++ (blankLine after ++ R)) (hR : Rest after R)
    {e : Bool} (he : Ends e p) (hbe : ∀ b bs', bs = b :: bs' → e = true → b.begins = false) (hb : Loop top p ls p') :
    ∃ p1 ls1, Loop top p1 ls1 p' ∧ ls1.map (textAt src) = R ∧ (∀ l ∈ ls1, Block.SpanOk src l) ∧ (Ends (endsList bs) p1 ∧ p1.attrStart = none) ∧ Goes p (traceL bs after) (ShowsL src bs after) p1 := by
  induction bs generalizing p ls e with
  | nil => exact absurd rfl hne
  | cons b bs ih =>
    simp only [BlksOk] at h
    obtain ⟨h1, h2, h3⟩ := h
    cases bs with
    | nil =>
      obtain ⟨p1, ls1, g1, g2, g3, g4, g5⟩ := block_ok b h1 hs (j := 0) (.inl rfl) after hp hok (by rw [lead_zero, hl]; simp [blkLines, sep]) hR he (hbe b [] rfl) hb
      refine ⟨p1, ls1, g1, g2, g3, g4, ?_⟩
      simp only [traceL, List.isEmpty_nil, Bool.not_true, Bool.false_or, List.append_nil]
      refine g5.imp ?_
      rintro E ⟨E1, E2, rfl, s1, s2⟩
      exact ⟨E1, E2, [], by simp, s1, s2, rfl⟩
    | cons c bs =>
      have hl' : ls.map (textAt src) = b.lines ++ (blankLine true ++ (blkLines (c :: bs) ++ (blankLine after ++ R))) := by
        rw [hl]
        have : blkLines (b :: c :: bs) = b.lines ++ (sep (c :: bs) ++ blkLines (c :: bs)) := rfl
        rw [this, sep_blank]
        simp
      obtain ⟨l2, L2, e2, hf2⟩ := blkLines_cons (bs := c :: bs) (by simp) h3
      obtain ⟨p1, ls1, g1, g2, g3, g4, g5⟩ := block_ok b h1 hs (j := 0) (.inl rfl) true hp hok (by rw [lead_zero]; exact hl') (.inr ⟨rfl, l2, _, by rw [e2]; rfl, hf2⟩) he (hbe b _ rfl) hb
      obtain ⟨p2, ls2, k1, k2, k3, k4, k5⟩ := ih (by simp) h3 (p := p1) (ls := ls1) (by rw [g5.src]; exact hp) g3 g2 g4.1
        (fun d ds hd hbl => by
          cases hd
          simpa [apart, hbl] using h2) g1
      refine ⟨p2, ls2, k1, k2, k3, k4, ?_⟩
      have := (Goes.trans he.quiet g5 k5).imp (S2 := ShowsL src (b :: c :: bs) after) (by
        rintro E ⟨Ea, E3, rfl, ⟨E1, E2, rfl, s1, s2⟩, s3⟩
        exact ⟨E1, E2, E3, by simp, s1, s2, s3⟩)
      have et : traceL (b :: c :: bs) after = b.trace true ++ (blankTrace (true && !b.keeps) ++ traceL (c :: bs) after) := rfl
      rw [et, ← List.append_assoc]
      exact this

/-! ## Sections that are open -/

/-- A section that is open: its level, its position, and the index of its start among the events. -/
structure Open where
  level : Nat
  pos : Nat
  idx : Nat

def Open.exit (start : Nat) (s : Open) : Block.Event := ⟨.exit (.container (.section s.pos)), ⟨start, start⟩⟩

/-- The state at the top level, with some sections open. -/
structure Top (p : Block.TP) (S : List Open) : Prop where
  attr : p.attrStart = none
  lists : p.openLists = []
  secs : p.openSections = S.map (·.level)
  opn : p.open_ = S.map (·.idx) ++ [0]
  doc : p.events[0]? = some ⟨.enter (.container .document), ⟨0, 0⟩⟩
  evs : ∀ s ∈ S, ∃ sp, p.events[s.idx]? = some ⟨.enter (.container (.section s.pos)), sp⟩

theorem Top.bound {p : Block.TP} {S : List Open} (h : Top p S) : ∀ i ∈ p.open_, i < p.events.length := by
  intro i hi
  rw [h.opn, List.mem_append, List.mem_map] at hi
  rcases hi with ⟨s, hs, rfl⟩ | hi
  · obtain ⟨sp, e⟩ := h.evs s hs
    exact (List.getElem?_eq_some_iff.1 e).1
  · rw [List.mem_singleton] at hi
    subst hi
    exact (List.getElem?_eq_some_iff.1 h.doc).1

theorem Top.calm {p : Block.TP} {S : List Open} (h : Top p S) : Calm p := ⟨(by rw [h.lists]; intro l ls h; cases h), h.bound⟩

theorem getElem?_append_some {α : Type} {l r : List α} {i : Nat} {x : α} (h : l[i]? = some x) : (l ++ r)[i]? = some x := by
  rw [List.getElem?_append_left (by rw [List.getElem?_eq_some_iff] at h; exact h.1)]
  exact h

theorem Top.app {p : Block.TP} {S : List Open} (h : Top p S) (E : List Block.Event) : Top (app p E) S :=
  ⟨h.attr, h.lists, h.secs, h.opn, getElem?_append_some h.doc, fun s hs => by
    obtain ⟨sp, e⟩ := h.evs s hs
    exact ⟨sp, getElem?_append_some e⟩⟩

theorem marks_events {p : Block.TP} (h : p.openLists = []) (ms : List Mk) : (marks p ms).events = p.events := by
  apply List.ext_getElem?
  intro i
  exact marks_other p ms (by rw [h]; intro l ls h; cases h)

theorem Top.marks {p : Block.TP} {S : List Open} (h : Top p S) (ms : List Mk) : Top (marks p ms) S := by
  have hf := marks_facts p ms
  have he := marks_events h.lists ms
  exact ⟨by rw [hf.2.2.2.1]; exact h.attr, by rw [hf.2.1]; exact h.lists, by rw [hf.2.2.2.2.2.1]; exact h.secs, by rw [hf.2.2.1]; exact h.opn, by rw [he]; exact h.doc, by rw [he]; exact h.evs⟩

theorem Top.al {p : Block.TP} {S : List Open} (h : Top p S) (a : Ext) (ha : a.2 = none) : Top (al p a) S := ⟨ha, h.lists, h.secs, h.opn, h.doc, h.evs⟩

theorem closeSections_ok (S2 : List Open) {p q : Block.TP} {S : List Open} {start i : Nat} (ha : p.attrStart = none) (ho : p.open_ = (S2 ++ S).map (·.idx) ++ [0])
    (he : ∀ s ∈ S2, ∃ sp, p.events[s.idx]? = some ⟨.enter (.container (.section s.pos)), sp⟩) (h : p.closeSections start i S2.length = .ok q) :
    q = { p with open_ := S.map (·.idx) ++ [0], events := p.events ++ S2.map (Open.exit start) } := by
  induction S2 generalizing p i with
  | nil =>
    simp only [List.length_nil, Block.TP.closeSections, Except.ok.injEq] at h
    subst h
    cases p
    simp only [List.nil_append] at ho
    simp [ho]
  | cons s S2 ih =>
    simp only [List.length_cons, Block.TP.closeSections, ho, List.cons_append, List.map_cons] at h
    obtain ⟨sp, hev⟩ := he s (by simp)
    have hn : p.enterNode s.idx = .ok (.container (.section s.pos)) := by
      simp [Block.TP.enterNode, idx, hev, Bind.bind, Except.bind, pure, Except.pure]
    rw [hn] at h
    simp only [Bind.bind, Except.bind, ha] at h
    have := ih (p := { p with open_ := (S2 ++ S).map (·.idx) ++ [0], events := p.events ++ [⟨.exit (.container (.section s.pos)), ⟨start, start⟩⟩] }) ha rfl
      (fun t ht => by
        obtain ⟨sp, e⟩ := he t (by simp [ht])
        exact ⟨sp, getElem?_append_some e⟩) (by simp only [ha]; exact h)
    rw [this]
    simp [Open.exit]

/-- The event of a line of attributes. -/
def attrEvent (s : Span) : Block.Event := ⟨.atom .attributes, s⟩

/-- The state after lines of attributes: these events come last. -/
structure TopA (p : Block.TP) (pre : List Block.Event) (A : List Span) (S : List Open) : Prop where
  attr : p.attrStart = if A.isEmpty then none else some pre.length
  evs : p.events = pre ++ A.map attrEvent
  top : Top { p with attrStart := none, events := pre } S

theorem Top.topA {p : Block.TP} {S : List Open} (h : Top p S) : TopA p p.events [] S :=
  ⟨h.attr, by simp, ⟨rfl, h.lists, h.secs, h.opn, h.doc, h.evs⟩⟩

theorem TopA.calm {p : Block.TP} {pre : List Block.Event} {A : List Span} {S : List Open} (h : TopA p pre A S) : Calm p :=
  ⟨(by rw [show p.openLists = [] from h.top.lists]; intro l ls h; cases h), (by
    intro i hi
    have := h.top.bound i hi
    rw [h.evs, List.length_append]
    exact Nat.lt_of_lt_of_le this (Nat.le_add_right _ _))⟩

theorem TopA.mark {p : Block.TP} {pre : List Block.Event} {A : List Span} {S : List Open} (h : TopA p pre A S) (m : Mk) : TopA (mark p m) pre A S := by
  have hl : p.openLists = [] := h.top.lists
  have hf := mark_facts p m
  have he : (Round.mark p m).events = p.events := marks_events hl [m]
  refine ⟨by rw [hf.2.2.2.1]; exact h.attr, by rw [he]; exact h.evs, rfl, by rw [← hl]; exact hf.2.1, ?_, ?_, h.top.doc, h.top.evs⟩
  · rw [show ({ Round.mark p m with attrStart := none, events := pre } : Block.TP).openSections = (Round.mark p m).openSections from rfl, hf.2.2.2.2.2.1]; exact h.top.secs
  · rw [show ({ Round.mark p m with attrStart := none, events := pre } : Block.TP).open_ = (Round.mark p m).open_ from rfl, hf.2.2.1]; exact h.top.opn

/-- Exits are put before the attributes. -/
theorem closeSections_attrs (S2 : List Open) {p q : Block.TP} {S : List Open} {start x : Nat} {pre X : List Block.Event} {A : List Span} {i : Nat} (hi : i = X.length)
    (hp : p.attrStart = some pre.length) (hev : p.events = pre ++ (X ++ A.map attrEvent)) (hx : ∀ e, (X ++ A.map attrEvent).head? = some e → e.span.start = x) (hA : A ≠ [])
    (ho : p.open_ = (S2 ++ S).map (·.idx) ++ [0])
    (he : ∀ s ∈ S2, ∃ sp, pre[s.idx]? = some ⟨.enter (.container (.section s.pos)), sp⟩) (h : p.closeSections start i S2.length = .ok q) :
    q = { p with open_ := S.map (·.idx) ++ [0], events := pre ++ (X ++ (S2.map (Open.exit x) ++ A.map attrEvent)) } := by
  induction S2 generalizing p i X with
  | nil =>
    simp only [List.length_nil, Block.TP.closeSections, Except.ok.injEq] at h
    subst h
    cases p
    simp only [List.nil_append] at ho hev
    simp [ho, hev]
  | cons s S2 ih =>
    subst hi
    simp only [List.length_cons, Block.TP.closeSections, ho, List.cons_append, List.map_cons] at h
    obtain ⟨sp, hs⟩ := he s (by simp)
    have hn : p.enterNode s.idx = .ok (.container (.section s.pos)) := by
      have := getElem?_append_some (r := X ++ A.map attrEvent) hs
      rw [← hev] at this
      simp [Block.TP.enterNode, idx, this, Bind.bind, Except.bind, pure, Except.pure]
    rw [hn] at h
    simp only [Bind.bind, Except.bind, hp] at h
    obtain ⟨e0, Y, hY⟩ : ∃ e0 Y, X ++ A.map attrEvent = e0 :: Y := by
      cases X with
      | nil => cases A with
        | nil => exact absurd rfl hA
        | cons a A => exact ⟨_, _, rfl⟩
      | cons e X => exact ⟨_, _, rfl⟩
    have hidx : idx p.events pre.length = .ok e0 := by
      unfold idx
      rw [hev, hY, List.getElem?_append_right (Nat.le_refl _), Nat.sub_self]
      rfl
    have hx0 : e0.span.start = x := hx e0 (by rw [hY]; rfl)
    rw [hidx] at h
    simp only [hx0] at h
    have hle : pre.length + X.length ≤ p.events.length := by rw [hev]; simp
    rw [if_pos hle] at h
    have htake : p.events.take (pre.length + X.length) = pre ++ X := by
      rw [hev, ← List.append_assoc, ← List.length_append, List.take_left]
    have hdrop : p.events.drop (pre.length + X.length) = A.map attrEvent := by
      rw [hev, ← List.append_assoc, ← List.length_append, List.drop_left]
    rw [htake, hdrop] at h
    have := ih (X := X ++ [Open.exit x s]) (i := X.length + 1) (by simp) (p := { p with open_ := (S2 ++ S).map (·.idx) ++ [0], events := pre ++ (X ++ [Open.exit x s] ++ A.map attrEvent) }) hp rfl
      (by
        intro e he
        cases X with
        | nil => simp at he; subst he; rfl
        | cons y X => simp at he; subst he; exact hx _ rfl) rfl (fun t ht => he t (by simp [ht])) (by
          rw [← h]
          simp only [hp, Open.exit]
          simp)
    rw [this]
    simp

/-- The sections that stay open at a heading. -/
def keep (level : Nat) (S : List Open) : List Open := S.dropWhile (fun s => decide (level ≤ s.level))

/-- The sections that end at a heading. -/
def closed (level : Nat) (S : List Open) : List Open := S.takeWhile (fun s => decide (level ≤ s.level))

/-- The events of sections at a heading with attributes. -/
def sectionEvents (level start x : Nat) (A : List Span) (S : List Open) : List Block.Event :=
  (closed level S).map (Open.exit x) ++ (A.map attrEvent ++ [⟨.enter (.container (.section (start % 4294967296))), ⟨start, start⟩⟩])

theorem sections_ok {p q : Block.TP} {S : List Open} {level start : Nat} {pre : List Block.Event} {A : List Span} (h : TopA p pre A S) (hq : p.sections level start = .ok q) :
    ∃ x i, q.src = p.src ∧ q.events = pre ++ sectionEvents level start x A S ∧ Top (bare q) (⟨level, start % 4294967296, i⟩ :: keep level S) := by
  unfold Block.TP.sections at hq
  obtain ⟨p1, h1, h2⟩ := bind_ok hq
  have hsecs : p.openSections = S.map (·.level) := h.top.secs
  have hopn : p.open_ = S.map (·.idx) ++ [0] := h.top.opn
  have hkeep : p.openSections.dropWhile (fun l => decide (level ≤ l)) = (keep level S).map (·.level) := by
    rw [hsecs, List.dropWhile_map]; rfl
  have hlen : S.length = (closed level S).length + (keep level S).length := by
    have := congrArg List.length (List.takeWhile_append_dropWhile (p := fun s : Open => decide (level ≤ s.level)) (l := S))
    rw [List.length_append] at this
    exact this.symm
  have hS : closed level S ++ keep level S = S := List.takeWhile_append_dropWhile
  have hn : p.openSections.length - ((keep level S).map (·.level)).length = (closed level S).length := by
    rw [hsecs, List.length_map, List.length_map]; omega
  rw [hkeep] at h1 h2
  rw [hn] at h1
  obtain ⟨x, e1⟩ : ∃ x, p1 = { p with open_ := (keep level S).map (·.idx) ++ [0], events := pre ++ ((closed level S).map (Open.exit x) ++ A.map attrEvent) } := by
    cases A with
    | nil =>
      have hev : p.events = pre := by rw [h.evs]; simp
      have := closeSections_ok (closed level S) (S := keep level S) h.attr (by rw [hS]; exact hopn) (fun s hs => by rw [hev]; exact h.top.evs s (by rw [← hS]; simp [hs])) h1
      exact ⟨start, by rw [this, hev]; simp⟩
    | cons a A =>
      have := closeSections_attrs (closed level S) (S := keep level S) (x := a.start) (X := []) (A := a :: A) (pre := pre) (i := 0) rfl h.attr (by rw [h.evs]; rfl) (by intro e he; cases he; rfl) (by simp) (by rw [hS]; exact hopn)
        (fun s hs => h.top.evs s (by rw [← hS]; simp [hs])) h1
      exact ⟨a.start, this⟩
  cases h2
  subst e1
  refine ⟨x, (pre ++ ((closed level S).map (Open.exit x) ++ A.map attrEvent)).length, rfl, by simp [Block.TP.enter, sectionEvents], rfl, h.top.lists, by simp [Block.TP.enter, bare], by simp [Block.TP.enter, bare], ?_, ?_⟩
  · simp only [Block.TP.enter, bare]
    exact getElem?_append_some (getElem?_append_some h.top.doc)
  · intro s hs
    simp only [Block.TP.enter, bare]
    rcases List.mem_cons.1 hs with rfl | hs
    · refine ⟨⟨start, start⟩, ?_⟩
      rw [List.getElem?_append_right (Nat.le_refl _), Nat.sub_self]; rfl
    · obtain ⟨sp, e⟩ := h.top.evs s (by rw [← hS]; simp [hs])
      exact ⟨sp, getElem?_append_some (getElem?_append_some e)⟩

/-- The spans of lines of attributes. -/
def AttrShows (src : Bytes) (as : List (Bytes × List (Attr.Item × Bytes))) (A : List Span) : Prop := A.map (textAt src) = attrLines as ∧ ∀ s ∈ A, Block.SpanOk src s

/-- Lines of attributes after others. -/
theorem attrs_more (as : List (Bytes × List (Attr.Item × Bytes))) (h : AttrLinesOk as) {src : Bytes} (hs : Safe src) {p p' : Block.TP} {ls : List Span} {R : List Bytes} {pre : List Block.Event} {A : List Span} {S : List Open}
    (hp : p.src = src) (hok : ∀ l ∈ ls, Block.SpanOk src l) (hl : ls.map (textAt src) = attrLines as ++ R) (ht : TopA p pre A S) (hA : A ≠ []) (hb : Loop true p ls p') :
    ∃ p1 ls1 B, Loop true p1 ls1 p' ∧ p1.src = src ∧ ls1.map (textAt src) = R ∧ (∀ l ∈ ls1, Block.SpanOk src l) ∧ AttrShows src as B ∧ TopA p1 pre (A ++ B) S := by
  induction as generalizing p ls A with
  | nil => exact ⟨p, ls, [], hb, hp, by simpa [attrLines] using hl, hok, ⟨rfl, by simp⟩, by simpa using ht⟩
  | cons a as ih =>
    obtain ⟨h1, h2, -⟩ := h a (by simp)
    have hne : ls ≠ [] := by rintro rfl; simp [attrLines] at hl
    obtain ⟨fuel, p1, n, hpb, hloop⟩ := hb.block hne
    obtain ⟨rfl, pos, s, al', htx, hsp, rfl, ha⟩ := attr_ok hs h1 h2 hp hok (by simpa [attrLines] using hl) hpb
    have hl1 := hloop (by simp)
    rw [ht.calm.settle] at hl1
    have hatt : p.attrStart = some pre.length := by
      rw [ht.attr]; cases A with
      | nil => exact absurd rfl hA
      | cons _ _ => rfl
    rw [hatt] at ha
    have htm := ht.mark .block
    obtain ⟨p2, ls2, B, g1, g2, g3, g4, g5, g6⟩ := ih (fun x hx => h x (by simp [hx])) (p := al (app (mark p .block) [⟨.atom .attributes, s⟩]) al') (ls := ls.drop 1) (A := A ++ [s])
      (by rw [al_src, app_src, (mark_facts p .block).1, hp]) (fun l hl => hok l (List.mem_of_mem_drop hl)) (by rw [List.map_drop, hl]; rfl)
      ⟨by rw [al_attr, ha]; simp, by rw [al_events, app_events, htm.evs]; simp [attrEvent], ⟨rfl, htm.top.lists, htm.top.secs, htm.top.opn, htm.top.doc, htm.top.evs⟩⟩ (by simp) hl1
    refine ⟨p2, ls2, s :: B, g1, g2, g3, g4, ⟨by simp [attrLines, htx]; exact g5.1, ?_⟩, by simpa using g6⟩
    intro t hm
    rcases List.mem_cons.1 hm with rfl | hm
    · exact hsp
    · exact g5.2 t hm

/-- The lines of attributes before a heading. -/
theorem attrs_ok (as : List (Bytes × List (Attr.Item × Bytes))) (h : AttrLinesOk as) {src : Bytes} (hs : Safe src) {p p' : Block.TP} {ls : List Span} {R : List Bytes} {S : List Open}
    (hp : p.src = src) (hok : ∀ l ∈ ls, Block.SpanOk src l) (hl : ls.map (textAt src) = attrLines as ++ R) (ht : ∀ pos, Top (settle p pos) S) (hb : Loop true p ls p') :
    ∃ p1 ls1, Loop true p1 ls1 p' ∧ p1.src = src ∧ ls1.map (textAt src) = R ∧ (∀ l ∈ ls1, Block.SpanOk src l) ∧
      ∀ pos, ∃ pos0 A, AttrShows src as A ∧ TopA (settle p1 pos) (settle p pos0).events A S := by
  cases as with
  | nil => exact ⟨p, ls, hb, hp, by simpa [attrLines] using hl, hok, fun pos => ⟨pos, [], ⟨rfl, by simp⟩, (ht pos).topA⟩⟩
  | cons a as =>
    obtain ⟨h1, h2, -⟩ := h a (by simp)
    have hne : ls ≠ [] := by rintro rfl; simp [attrLines] at hl
    obtain ⟨fuel, p1, n, hpb, hloop⟩ := hb.block hne
    obtain ⟨rfl, pos, s, al', htx, hsp, rfl, ha⟩ := attr_ok hs h1 h2 hp hok (by simpa [attrLines] using hl) hpb
    have htp := ht pos
    have hatt : p.attrStart = none := by rw [← (settle_src p pos).2]; exact htp.attr
    rw [hatt] at ha
    have hev : (mark (settle p pos) .block).events = (settle p pos).events := marks_events htp.lists [.block]
    have htm := htp.topA.mark .block
    obtain ⟨p2, ls2, B, g1, g2, g3, g4, g5, g6⟩ := attrs_more as (fun x hx => h x (by simp [hx])) hs (p := al (app (mark (settle p pos) .block) [⟨.atom .attributes, s⟩]) al') (ls := ls.drop 1) (A := [s])
      (pre := (settle p pos).events) (S := S) (R := R)
      (by rw [al_src, app_src, (mark_facts _ .block).1, (settle_src _ _).1, hp]) (fun l hl => hok l (List.mem_of_mem_drop hl)) (by rw [List.map_drop, hl]; rfl)
      ⟨by rw [al_attr, ha, hev]; simp, by rw [al_events, app_events, hev]; simp [attrEvent], ⟨rfl, htm.top.lists, htm.top.secs, htm.top.opn, htm.top.doc, htm.top.evs⟩⟩ (by simp) (hloop (by simp))
    refine ⟨p2, ls2, g1, g2, g3, g4, ?_⟩
    intro pos'
    refine ⟨pos, [s] ++ B, ⟨by simp [attrLines, htx]; exact g5.1, ?_⟩, by rw [g6.calm.settle]; exact g6⟩
    intro t hm
    rcases List.mem_cons.1 hm with rfl | hm
    · exact hsp
    · exact g5.2 t hm

/-! ## Headings and the blocks after them -/

/-- The block events of headings and blocks, with the sections that are open before and after. -/
inductive ShowsH (src : Bytes) : List Open → List Head → List Open → List Block.Event → Prop
  | nil {S} : ShowsH src S [] S []
  | cons {S S' : List Open} {h : Head} {H : List Head} {i x : Nat} {A : List Span} {s e : Span} {sps : List Span} {E1 E2 E3 : List Block.Event}
    (ha : AttrShows src h.attrs A) (ht : sps.map (textAt src) = splitNl (prints h.title)) (h1 : BlankShows (!h.body.isEmpty || !H.isEmpty) E1) (h2 : ShowsL src h.body (!H.isEmpty) E2)
    (h3 : ShowsH src (⟨h.level, s.start % 4294967296, i⟩ :: keep h.level S) H S' E3) :
    ShowsH src S (h :: H) S' (sectionEvents h.level s.start x A S ++ (leafEvents (.heading h.level true (s.start % 4294967296)) s e sps ++ (E1 ++ (E2 ++ E3))))

theorem gap_eq (b : Bool) : gap b = blankLine b := rfl

theorem title_flush {n : Nat} (hn : 1 ≤ n) {is : List Inl} (h : TitleOk is) : ∃ l L, titleLines n is = l :: L ∧ Flush l := by
  obtain ⟨A, z, hA1, hA2⟩ := title_lines h
  obtain ⟨m, rfl⟩ : ∃ m, n = m + 1 := ⟨n - 1, by omega⟩
  unfold titleLines
  rw [hA2]
  cases A with
  | nil => exact ⟨_, _, rfl, c! '#', hashes m ++ c! ' ' :: (z ++ [c! '\n']), by simp [hashes, List.replicate_succ], by decide, by simp only [hashes, List.replicate_succ, List.cons_append]; exact notCap (by decide) _⟩
  | cons a A => exact ⟨_, _, rfl, c! '#', hashes m ++ c! ' ' :: a, by simp [hashes, List.replicate_succ], by decide, by simp only [hashes, List.replicate_succ, List.cons_append]; exact notCap (by decide) _⟩

theorem headLines_flush {H : List Head} (hH : ∀ h ∈ H, h.Ok) : H = [] ∨ ∃ l L, headLines H = l :: L ∧ Flush l := by
  cases H with
  | nil => exact .inl rfl
  | cons h H =>
    obtain ⟨h1, -, h2, -⟩ := hH h (by simp)
    obtain ⟨l, L, e, hf⟩ := title_flush h1 h2
    cases ha : h.attrs with
    | nil => exact .inr ⟨l, _, by rw [headLines, e, ha]; rfl, hf⟩
    | cons a as =>
      obtain ⟨cs, e2⟩ := attr_line (w := a.1) (is := a.2)
      exact .inr ⟨_, _, by rw [headLines, ha]; rfl, c! '{', _, e2, by decide, by rw [e2]; exact notCap (by decide) _⟩

/-- The blank line after a heading. -/
theorem skip_blank {src : Bytes} (hs : Safe src) {p p' : Block.TP} {ls : List Span} {R : List Bytes} {top : Bool} {S : List Open} (b : Bool) (hp : p.src = src) (hok : ∀ l ∈ ls, Block.SpanOk src l)
    (hl : ls.map (textAt src) = blankLine b ++ R) (ht : Top p S) (hb : Loop top p ls p') :
    ∃ p1 ls1 E, Loop top p1 ls1 p' ∧ p1.src = src ∧ ls1.map (textAt src) = R ∧ (∀ l ∈ ls1, Block.SpanOk src l) ∧ Top p1 S ∧ p1.events = p.events ++ E ∧ BlankShows b E := by
  cases b with
  | false => exact ⟨p, ls, [], hb, hp, hl, hok, ht, by simp, rfl⟩
  | true =>
    simp only [blankLine, ↓reduceIte, List.singleton_append] at hl
    have hne : ls ≠ [] := by rintro rfl; simp at hl
    obtain ⟨fuel, p1, n, hpb, hloop⟩ := hb.block hne
    obtain ⟨rfl, s, a, rfl⟩ := blank_ok hs hp hok hl ht.calm hpb
    have ht2 : Top (mark p .blank) S := ht.marks [.blank]
    refine ⟨_, ls.drop 1, [⟨.atom .blankline, s⟩], hloop (by simp), ?_, ?_, fun l hl => hok l (List.mem_of_mem_drop hl), (ht2.app _).al (a, none) rfl, ?_, ⟨s, rfl⟩⟩
    · exact hp
    · rw [List.map_drop, hl]; rfl
    · rfl

theorem heads_ok (H : List Head) (hH : ∀ h ∈ H, h.Ok) {src : Bytes} (hs : Safe src) {p p' : Block.TP} {ls : List Span} {S : List Open} {e : Bool} (hp : p.src = src)
    (hok : ∀ l ∈ ls, Block.SpanOk src l) (hl : ls.map (textAt src) = headLines H) (he : Ends e p) (htop : ∀ pos, Top (settle p pos) S) (hb : Loop true p ls p') :
    ∃ e', Ends e' p' ∧ p'.src = src ∧ ∀ pos, ∃ pos0 E S', Top (settle p' pos) S' ∧ (settle p' pos).events = (settle p pos0).events ++ E ∧ ShowsH src S H S' E := by
  induction H generalizing p ls S e with
  | nil =>
    have hnil : ls = [] := by simpa [headLines] using hl
    subst hnil
    have e := hb.done
    subst e
    exact ⟨_, he, hp, fun pos => ⟨pos, [], S, htop pos, by simp, .nil⟩⟩
  | cons h H ih =>
    obtain ⟨g1, g2, g3, g4, ga⟩ := hH h (by simp)
    have hH' : ∀ h ∈ H, h.Ok := fun x hx => hH x (by simp [hx])
    simp only [headLines, gap_eq] at hl
    obtain ⟨l0, L0, htl, -⟩ := title_flush g1 g3
    obtain ⟨pa, la, hba, hpa, hla, hoka, htopa⟩ := attrs_ok h.attrs ga hs hp hok hl htop hb
    clear he hb hl hok
    have hb := hba
    have hl := hla
    have hok := hoka
    clear hba hla hoka
    have hne : la ≠ [] := by rintro rfl; rw [htl] at hl; simp at hl
    obtain ⟨fuel, p1, n, hpb, hloop⟩ := hb.block hne
    obtain ⟨rfl, s, e1, sps, q, k1, k2, k3⟩ := heading_ok hs g1 g2 g3 hpa hok hl (by
      cases hbe : h.body.isEmpty with
      | false => simp [blankLine]
      | true =>
        cases H with
        | nil =>
          have : h.body = [] := by simpa using hbe
          simp [this, blankLine, blkLines, headLines]
        | cons h2 H => simp [blankLine]) hpb
    simp only [Block.TP.leafSections] at k2
    obtain ⟨pos0, A, hA, ht0⟩ := htopa s.start
    obtain ⟨x, i, s1, s2, s3⟩ := sections_ok (ht0.mark .block) k2
    have hl1 := hloop (by rw [htl]; simp)
    have hp1 : p1.src = src := by rw [k3, bare_al, al_src, app_src, s1, (mark_facts _ .block).1, (settle_src _ _).1, hpa]
    have ht2 : Top p1 (⟨h.level, s.start % 4294967296, i⟩ :: keep h.level S) := by
      rw [k3]; exact s3.app _
    obtain ⟨p2, ls2, E1, m1, m2, m3, m4, m5, m6, m7⟩ := skip_blank hs _ hp1 (fun l hl => hok l (List.mem_of_mem_drop hl)) (by rw [List.map_drop, hl, List.drop_left]) ht2 hl1
    have hev2 : p2.events = (settle p pos0).events ++ (sectionEvents h.level s.start x A S ++ (leafEvents (.heading h.level true (s.start % 4294967296)) s e1 sps ++ E1)) := by
      rw [m6, k3, bare_al, al_events, app_events, s2]; simp
    have hbody : ∃ (p3 : Block.TP) (ls3 : List Span) (e3 : Bool), Loop true p3 ls3 p' ∧ p3.src = src ∧ ls3.map (textAt src) = headLines H ∧ (∀ l ∈ ls3, Block.SpanOk src l) ∧ Ends e3 p3 ∧
        ∀ pos, Top (settle p3 pos) (⟨h.level, s.start % 4294967296, i⟩ :: keep h.level S) ∧
          ∃ E2, (settle p3 pos).events = p2.events ++ E2 ∧ ShowsL src h.body (!H.isEmpty) E2 := by
      by_cases hbe : h.body = []
      · rw [hbe] at m3 ⊢
        refine ⟨p2, ls2, false, m1, m2, by simpa [blankLine, blkLines] using m3, m4, m5.calm, ?_⟩
        intro pos
        rw [m5.calm.settle]
        exact ⟨m5, [], by simp, rfl⟩
      · have hbf : h.body.isEmpty = false := by simpa using hbe
        simp only [hbf, Bool.not_false, Bool.true_and] at m3
        obtain ⟨p3, ls3, n1, n2, n3, ⟨n4, n4a⟩, n5⟩ := kids_rest h.body hbe g4 hs (!H.isEmpty) m2 m4 m3 (by
          rcases headLines_flush hH' with rfl | ⟨l, L, e, hf⟩
          · exact .inl rfl
          · refine .inr ⟨?_, l, L, e, hf⟩
            cases H with
            | nil => cases e
            | cons _ _ => rfl) (e := false) m5.calm (by simp) m1
        refine ⟨p3, ls3, _, n1, by rw [n5.src]; exact m2, n2, n3, n4, ?_⟩
        intro pos
        obtain ⟨pos0, E2, a', x1, x2⟩ := n5 pos
        rw [m5.calm.settle] at x2
        have ha : a'.2 = none := by
          have := congrArg Block.TP.attrStart x2
          rw [(settle_src _ _).2, n4a] at this
          exact this.symm
        rw [x2]
        exact ⟨((m5.marks _).app _).al a' ha, E2, by rw [al_events, app_events, marks_events m5.lists], x1⟩
    obtain ⟨p3, ls3, e3, b1, b2, b3, b4, b5, b6⟩ := hbody
    obtain ⟨e4, c1, c2, c3⟩ := ih hH' b2 b4 b3 b5 (fun pos => (b6 pos).1) b1
    refine ⟨e4, c1, c2, ?_⟩
    intro pos
    obtain ⟨pos1, E3, S', d1, d2, d3⟩ := c3 pos
    obtain ⟨-, E2, d4, d5⟩ := b6 pos1
    refine ⟨pos0, _, S', d1, ?_, .cons (e := e1) (x := x) (i := i) hA k1 m7 d5 d3⟩
    rw [d2, d4, hev2]
    simp

/-! ## Whole documents -/

theorem exitN_ok {S : List Open} {p q : Block.TP} {sp : Span} (h : Top p S) (hq : p.exitN sp S.length = .ok q) :
    q = { p with open_ := [0], events := p.events ++ S.map (fun s => (⟨.exit (.container (.section s.pos)), sp⟩ : Block.Event)) } := by
  have ho := h.opn
  have he := h.evs
  clear h
  induction S generalizing p with
  | nil =>
    simp only [List.length_nil, Block.TP.exitN, Except.ok.injEq] at hq
    subst hq
    cases p
    simp only [List.map_nil, List.nil_append] at ho
    simp [ho]
  | cons s S ih =>
    simp only [List.length_cons, Block.TP.exitN] at hq
    obtain ⟨p1, h1, h2⟩ := bind_ok hq
    obtain ⟨sp1, hev⟩ := he s (by simp)
    have e1 := exit_eq (rest := S.map (·.idx) ++ [0]) (by rw [ho]; rfl) hev h1
    subst e1
    have := ih h2 rfl (fun t ht => by
      obtain ⟨sp, e⟩ := he t (by simp [ht])
      exact ⟨sp, getElem?_append_some e⟩)
    rw [this]
    simp

theorem OneLine.hashed {l : Bytes} (h : OneLine l) (n : Nat) : OneLine (hashes n ++ c! ' ' :: l) := by
  obtain ⟨a, rfl, ha⟩ := h
  refine ⟨hashes n ++ c! ' ' :: a, by simp, ?_⟩
  intro hm
  rcases List.mem_append.1 hm with hm | hm
  · exact nl_replicate (by decide) hm
  · rcases List.mem_cons.1 hm with hm | hm
    · exact absurd hm (by decide)
    · exact ha hm

theorem gap_oneLine (b : Bool) : ∀ l ∈ gap b, OneLine l := by
  intro l hl
  unfold gap at hl
  split at hl
  · simp only [List.mem_singleton] at hl; subst hl; exact ⟨[], rfl, by simp⟩
  · cases hl

theorem headLines_oneLine (H : List Head) (hH : ∀ h ∈ H, h.Ok) : ∀ l ∈ headLines H, OneLine l := by
  induction H with
  | nil => simp [headLines]
  | cons h H ih =>
    intro l hl
    simp only [headLines, List.mem_append] at hl
    rcases hl with hl | hl | hl | hl | hl | hl
    · obtain ⟨a, ha, rfl⟩ := List.mem_map.1 hl
      exact ⟨_, rfl, ((hH h (by simp)).2.2.2.2 a ha).2.2⟩
    · unfold titleLines at hl
      obtain ⟨x, hx, rfl⟩ := List.mem_map.1 hl
      exact (splitNl_oneLine (by simp) x hx).hashed _
    · exact gap_oneLine _ l hl
    · exact blks_oneLine h.body (hH h (by simp)).2.2.2.1 l hl
    · exact gap_oneLine _ l hl
    · exact ih (fun x hx => hH x (by simp [hx])) l hl

/-- The lines of blocks and headings. -/
def flatLines (front : List Blk) (H : List Head) : List Bytes := blkLines front ++ (gap (!front.isEmpty && !H.isEmpty) ++ headLines H)

/-- The block events of a written document. -/
theorem parse_flat {front : List Blk} {H : List Head} (hf : BlksOk front) (hH : ∀ h ∈ H, h.Ok) {src : Bytes} (hsrc : src = (flatLines front H).flatten) (hu : Utf8 src) {E : List Block.Event}
    (hp : Block.parse src = .ok E) : ∃ E1 E2 S sp, Around .document (E1 ++ (E2 ++ S.map (fun s => (⟨.exit (.container (.section s.pos)), sp⟩ : Block.Event)))) E
      ∧ ShowsL src front (!H.isEmpty) E1 ∧ ShowsH src [] H S E2 := by
  unfold Block.parse at hp
  obtain ⟨p0, h0, g0⟩ := bind_ok hp
  clear hp
  have hone : ∀ l ∈ flatLines front H, OneLine l := by
    intro l hl
    simp only [flatLines, List.mem_append] at hl
    rcases hl with hl | hl | hl
    · exact blks_oneLine front hf l hl
    · exact gap_oneLine _ l hl
    · exact headLines_oneLine H hH l hl
  have hlines : (Block.lines src).map (textAt src) = flatLines front H := by
    have := linesFrom_flatten (start := 0) hone (src := src) (by rw [← hsrc]; rfl)
    rw [← hsrc] at this
    exact this
  have ht0 : Top (({ src := src } : Block.TP).enter (.container .document) ⟨0, 0⟩) [] := ⟨rfl, rfl, rfl, rfl, rfl, by simp⟩
  have hloop := loop_top h0
  have hfront : ∃ (p1 : Block.TP) (ls1 : List Span) (e1 : Bool), Loop true p1 ls1 p0 ∧ p1.src = src ∧ ls1.map (textAt src) = headLines H ∧ (∀ l ∈ ls1, Block.SpanOk src l) ∧ Ends e1 p1 ∧
      ∀ pos, Top (settle p1 pos) [] ∧ ∃ E1, (settle p1 pos).events = [⟨.enter (.container .document), ⟨0, 0⟩⟩] ++ E1 ∧ ShowsL src front (!H.isEmpty) E1 := by
    by_cases hfe : front = []
    · subst hfe
      refine ⟨_, _, false, hloop, rfl, by rw [hlines]; simp [flatLines, blkLines, gap], lines_spanOk hu, ht0.calm, ?_⟩
      intro pos
      rw [ht0.calm.settle]
      exact ⟨ht0, [], rfl, rfl⟩
    · have hff : front.isEmpty = false := by simpa using hfe
      obtain ⟨p3, ls3, n1, n2, n3, ⟨n4, n4a⟩, n5⟩ := kids_rest front hfe hf hu.safe (!H.isEmpty) rfl (lines_spanOk hu) (R := headLines H) (by rw [hlines, flatLines, hff, gap_eq]; simp) (by
        rcases headLines_flush hH with rfl | ⟨l, L, e, hf⟩
        · exact .inl rfl
        · refine .inr ⟨?_, l, L, e, hf⟩
          cases H with
          | nil => cases e
          | cons _ _ => rfl) (e := false) ht0.calm (by simp) hloop
      refine ⟨p3, ls3, _, n1, n5.src, n2, n3, n4, ?_⟩
      intro pos
      obtain ⟨pos0, E2, a', x1, x2⟩ := n5 pos
      rw [ht0.calm.settle] at x2
      have ha : a'.2 = none := by
        have := congrArg Block.TP.attrStart x2
        rw [(settle_src _ _).2, n4a] at this
        exact this.symm
      rw [x2]
      exact ⟨((ht0.marks _).app _).al a' ha, E2, by rw [al_events, app_events, marks_events ht0.lists]; rfl, x1⟩
  obtain ⟨p1, ls1, e1, b1, b2, b3, b4, b5, b6⟩ := hfront
  obtain ⟨e4, c1, c2, c3⟩ := heads_ok H hH hu.safe b2 b4 b3 b5 (fun pos => (b6 pos).1) b1
  obtain ⟨pos1, E2, S, d1, d2, d3⟩ := c3 src.length
  obtain ⟨-, E1, d4, d5⟩ := b6 pos1
  obtain ⟨p2, h1, g1⟩ := bind_ok g0
  clear g0
  have e2 := closeAll_settle c1 d1.lists h1
  rw [← e2] at d1 d2
  obtain ⟨p3, h2, g2⟩ := bind_ok g1
  rw [d1.secs, List.length_map] at h2
  have e3 := exitN_ok d1 h2
  obtain ⟨p4, h3, g3⟩ := bind_ok g2
  have e4 := exit_eq (s := ⟨0, 0⟩) (n := .container .document) (i := 0) (rest := []) (by rw [e3]) (by rw [e3]; exact getElem?_append_some d1.doc) h3
  have hE : E = p4.events := by
    obtain ⟨u, -, h5⟩ := bind_ok g3
    cases h5; rfl
  refine ⟨E1, E2, S, ⟨src.length, src.length⟩, ⟨⟨0, 0⟩, ⟨src.length, src.length⟩, ?_⟩, d5, d3⟩
  rw [hE, e4]
  show p3.events ++ _ = _
  rw [e3]
  show p2.events ++ _ ++ _ = _
  rw [d2, d4]
  simp

end Jotdown.Round
