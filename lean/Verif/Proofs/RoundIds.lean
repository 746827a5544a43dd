import Verif.Proofs.RoundSec
import Verif.Props.Headings
/-! # Round trip: events of documents with sections -/
namespace Jotdown.Round
open Jotdown Jotdown.Notation

/-! ## From the tree of sections to the headings in order -/

/-- Sections that are open, with level and id. -/
abbrev Stack := List (Nat × Bytes)

/-- The events of headings in order, where sections are ended as soon as a heading asks for it. -/
def flatEvents : Stack → List Head → List Event
  | S, [] => S.map (fun s => .end (.section s.2))
  | S, h :: H => (S.takeWhile (fun s => decide (h.level ≤ s.1))).map (fun s => .end (.section s.2)) ++
      (.start (.section h.id) (attrElems h.attrs) :: (h.events (!H.isEmpty) ++ flatEvents ((h.level, h.id) :: S.dropWhile (fun s => decide (h.level ≤ s.1))) H))

/-- The next heading does not belong to a section of this level. -/
def Outer (level : Nat) (H : List Head) : Prop := ∀ h, H.head? = some h → h.level ≤ level

/-- A section of this level is put into the innermost one that is open. -/
def Inner (S : Stack) (level : Nat) : Prop := ∀ s, S.head? = some s → s.1 < level

theorem flat_pop {S : Stack} {l : Nat} {id : Bytes} {H : List Head} (h : Outer l H) : flatEvents ((l, id) :: S) H = .end (.section id) :: flatEvents S H := by
  cases H with
  | nil => rfl
  | cons h' H =>
    have := h h' rfl
    simp [flatEvents, this]

theorem heads_head (s : Sec) : s.heads.head? = some s.head := by
  cases s with
  | mk h subs => rfl

theorem headsOf_isEmpty (ss : List Sec) : (headsOf ss).isEmpty = ss.isEmpty := by
  cases ss with
  | nil => rfl
  | cons s ss =>
    cases s with
    | mk h subs => rfl

mutual
theorem Sec.flat (s : Sec) (h : s.Ok) {S : Stack} (hS : Inner S s.head.level) {H : List Head} (hH : Outer s.head.level H) :
    flatEvents S (s.heads ++ H) = s.events (!H.isEmpty) ++ flatEvents S H := by
  match s with
  | .mk h0 subs =>
    simp only [Sec.Ok] at h
    simp only [Sec.head] at hS hH
    have hcl : S.takeWhile (fun s => decide (h0.level ≤ s.1)) = [] ∧ S.dropWhile (fun s => decide (h0.level ≤ s.1)) = S := by
      cases S with
      | nil => exact ⟨rfl, rfl⟩
      | cons t S =>
        have : t.1 < h0.level := hS t rfl
        have hd : decide (h0.level ≤ t.1) = false := by simp; omega
        simp [hd]
    simp only [Sec.heads, List.cons_append, flatEvents, hcl.1, hcl.2, List.map_nil, List.nil_append]
    rw [secs_flat h0.level subs h.2 (S := (h0.level, h0.id) :: S) (fun t ht => by cases ht; exact Nat.le_refl _) (fun x hx => hH x hx), flat_pop hH]
    have he : ((headsOf subs ++ H).isEmpty) = (subs.isEmpty && H.isEmpty) := by
      rw [← headsOf_isEmpty subs]
      cases headsOf subs <;> simp
    rw [he, Sec.events]
    simp [Bool.not_and]
theorem secs_flat (outer : Nat) (ss : List Sec) (h : SecsOk outer ss) {S : Stack} (hS : ∀ s, S.head? = some s → s.1 ≤ outer) {H : List Head} (hH : Outer outer H) :
    flatEvents S (headsOf ss ++ H) = secEvents ss (!H.isEmpty) ++ flatEvents S H := by
  match ss with
  | [] => rfl
  | s :: ss =>
    simp only [SecsOk] at h
    obtain ⟨h1, h2, h3, h4⟩ := h
    simp only [headsOf, List.append_assoc]
    rw [Sec.flat s h2 (fun t ht => by have := hS t ht; omega) (H := headsOf ss ++ H), secs_flat outer ss h4 hS hH, secEvents]
    · have he : ((headsOf ss ++ H).isEmpty) = (ss.isEmpty && H.isEmpty) := by
        rw [← headsOf_isEmpty ss]
        cases headsOf ss <;> simp
      rw [he]
      simp [Bool.not_and]
    · intro x hx
      cases ss with
      | nil =>
        have := hH x hx
        omega
      | cons t ss =>
        have := h3 t rfl
        simp only [headsOf, List.append_assoc, List.head?_append, heads_head, Option.some_or, Option.some.injEq] at hx
        subst hx
        exact this
end

/-- The events of a document, from its headings in order. -/
theorem doc_flat {d : Doc} (h : SecsOk 0 d.secs) :
    d.events = .start .document [] :: (blkEvents d.front (!(headsOf d.secs).isEmpty) ++ (flatEvents [] (headsOf d.secs) ++ [.end .document])) := by
  have := secs_flat 0 d.secs h (S := []) (by simp) (H := []) (by intro x hx; cases hx)
  simp only [List.append_nil] at this
  rw [this, headsOf_isEmpty]
  simp [Doc.events, flatEvents]

mutual
theorem Sec.headsOk (s : Sec) (h : s.Ok) : ∀ x ∈ s.heads, x.Ok := by
  match s with
  | .mk h0 subs =>
    simp only [Sec.Ok] at h
    intro x hx
    rcases List.mem_cons.1 hx with rfl | hx
    · exact h.1
    · exact secs_headsOk _ subs h.2 x hx
theorem secs_headsOk (outer : Nat) (ss : List Sec) (h : SecsOk outer ss) : ∀ x ∈ headsOf ss, x.Ok := by
  match ss with
  | [] => intro x hx; cases hx
  | s :: ss =>
    simp only [SecsOk] at h
    intro x hx
    rcases List.mem_append.1 hx with hx | hx
    · exact Sec.headsOk s h.2.1 x hx
    · exact secs_headsOk outer ss h.2.2.2 x hx
end

/-! ## Events -/

/-- The same headings, perhaps with other ids. -/
inductive SameHeads : List Head → List Head → Prop
  | nil : SameHeads [] []
  | cons {h : Head} {id : Bytes} {H H' : List Head} : SameHeads H H' → SameHeads (h :: H) ({ h with id := id } :: H')

theorem SameHeads.empty {H H' : List Head} (h : SameHeads H H') : H'.isEmpty = H.isEmpty := by
  cases h <;> rfl

/-- Ids of open sections. -/
def names (pre : PrePass) (S : List Open) : Stack := S.map (fun s => (s.level, idAt pre s.pos))

theorem doc_exits {src : Bytes} {pre : PrePass} {hd : Bool} (S : List Open) {sp : Open → Span} {K : List Block.Event} {evs : List (Event × Span)}
    (h : DocEvents src pre hd [] (S.map (fun s => (⟨.exit (.container (.section s.pos)), sp s⟩ : Block.Event)) ++ K) evs) :
    ∃ evs', evs.map (·.1) = (names pre S).map (fun s => .end (.section s.2)) ++ evs'.map (·.1) ∧ DocEvents src pre hd [] K evs' := by
  induction S generalizing evs with
  | nil => exact ⟨evs, rfl, h⟩
  | cons s S ih =>
    obtain ⟨e1, h1, h2⟩ := doc_exit h
    obtain ⟨e2, h3, h4⟩ := ih h2
    exact ⟨e2, by rw [h1, h3]; simp [names, nodeName], h4⟩

/-- Lines of attributes are attributes of what follows. -/
theorem doc_attrs {src : Bytes} {pre : PrePass} {hd : Bool} {P A : List Span} {K : List Block.Event} {evs : List (Event × Span)} (h : DocEvents src pre hd P (A.map attrEvent ++ K) evs) :
    DocEvents src pre hd (P ++ A) K evs := by
  induction A generalizing P with
  | nil => simpa using h
  | cons s A ih =>
    have := ih (doc_attr h)
    simpa using this

/-- The attributes on these lines. -/
theorem attrs_in {src : Bytes} {as : List (Bytes × List (Attr.Item × Bytes))} {A : List Span} (hs : Safe src) (h : AttrLinesOk as) (hA : AttrShows src as A) : attrsIn src A = attrElems as := by
  obtain ⟨h1, h2⟩ := hA
  induction as generalizing A with
  | nil =>
    cases A with
    | nil => rfl
    | cons s A => cases h1
  | cons a as ih =>
    cases A with
    | nil => cases h1
    | cons s A =>
      simp only [attrLines, List.map_cons, List.cons.injEq] at h1
      obtain ⟨g1, g2, -⟩ := h a (by simp)
      have hbs := Block.sliceOf_bd_safe (h2 s (by simp)) hs
      have e : attrsAt src s = a.2.map (·.1.elem) := by
        unfold attrsAt
        rw [h1.1, Attr.attrs_of_line g1 g2 (by rw [← h1.1]; exact hbs)]
      have := ih (A := A) (fun x hx => h x (by simp [hx])) h1.2 (fun t ht => h2 t (by simp [ht]))
      rw [show (s :: A) = [s] ++ A from rfl, attrsIn_append, attrsIn_one, this, e]
      simp [attrElems]

theorem heads_doc (H : List Head) (hH : ∀ h ∈ H, h.Ok) {src : Bytes} (hu : Safe src) {pre : PrePass} {hd : Bool} {S S' : List Open} {sp : Span} {E K : List Block.Event} {evs : List (Event × Span)} (hs : ShowsH src S H S' E)
    (hE : DocEvents src pre hd [] (E ++ (S'.map (fun s => (⟨.exit (.container (.section s.pos)), sp⟩ : Block.Event)) ++ K)) evs) :
    ∃ H' evs' hd', SameHeads H H' ∧ evs.map (·.1) = flatEvents (names pre S) H' ++ evs'.map (·.1) ∧ DocEvents src pre hd' [] K evs' := by
  induction H generalizing S E evs hd with
  | nil =>
    cases hs
    obtain ⟨evs', h1, h2⟩ := doc_exits S' (sp := fun _ => sp) hE
    exact ⟨[], evs', hd, .nil, h1, h2⟩
  | cons h H ih =>
    obtain ⟨-, -, g3, g4, ga⟩ := hH h (by simp)
    cases hs with
    | @cons _ _ _ _ i x A s e sps E1 E2 E3 hA ht s1 s2 s3 =>
      simp only [sectionEvents, List.append_assoc] at hE
      obtain ⟨ev1, a1, a2⟩ := doc_exits (closed h.level S) (sp := fun _ => ⟨x, x⟩) hE
      replace a2 := doc_attrs a2
      rw [List.nil_append] at a2
      obtain ⟨ev2, a3, a4⟩ := doc_enterP a2
      rw [attrs_in hu ga hA] at a3
      simp only [List.append_eq, List.nil_append] at a4
      obtain ⟨cs, ev3, a5, a6, a7⟩ := doc_leaf a4
      have htitle : cs.map (·.1) = joined (inlEvents h.title) := by
        cases a6 with
        | raw hr => cases hr
        | parsed _ hr =>
          have hne : h.title ≠ [] := by
            intro he
            obtain ⟨c, hc, -⟩ := g3.2.2.2.2
            rw [he] at hc
            cases hc
          exact inline_round g3.1 g3.2.1 g3.2.2.1 hne ht hr
      have hblank : ∃ ev4, ev3.map (·.1) = blankAfter (!h.body.isEmpty || !H.isEmpty) ++ ev4.map (·.1) ∧
          DocEvents src pre (rowIn hd (.section (s.start % 4294967296))) [] (E2 ++ (E3 ++ (S'.map (fun s => (⟨.exit (.container (.section s.pos)), sp⟩ : Block.Event)) ++ K))) ev4 := by
        unfold BlankShows at s1
        unfold blankAfter
        split at s1
        · rename_i hb
          rw [if_pos hb]
          obtain ⟨s, rfl⟩ := s1
          exact doc_blank a7
        · rename_i hb
          rw [if_neg hb]
          subst s1
          exact ⟨ev3, rfl, a7⟩
      obtain ⟨ev4, a8, a9⟩ := hblank
      obtain ⟨ev5, hd1, b1, b2⟩ := blks_doc h.body g4 _ hu s2 a9
      obtain ⟨H', ev6, hd2, b3, b4, b5⟩ := ih (fun x hx => hH x (by simp [hx])) s3 b2
      refine ⟨{ h with id := idAt pre (s.start % 4294967296) } :: H', ev6, hd2, .cons b3, ?_, b5⟩
      have hn1 : names pre (closed h.level S) = (names pre S).takeWhile (fun s => decide (h.level ≤ s.1)) := by
        unfold names closed; rw [List.takeWhile_map]; rfl
      have hn2 : names pre (keep h.level S) = (names pre S).dropWhile (fun s => decide (h.level ≤ s.1)) := by
        unfold names keep; rw [List.dropWhile_map]; rfl
      rw [a1, a3, a5, a8, b1, b4, htitle]
      simp only [flatEvents, ← hn1, ← hn2, b3.empty, Head.events, nodeName]
      simp [names]

/-! ## Ids -/

/-- An event that has nothing to do with headings or attributes. -/
def quietEvent : Event → Prop
  | .start (.heading ..) _ | .end (.heading ..) | .attributes _ => False
  | .start _ a => a = []
  | _ => True

theorem headings_cons_quiet {e : Event} (he : quietEvent e) (inH : Bool) (given : Attr.Attributes) (es : List Event) :
    headingsFrom inH given (e :: es) = headingsFrom (inHeading inH e) (carry inH given e) es := by
  cases e with
  | start c a => cases c <;> first | rfl | exact absurd he id
  | _ => rfl

theorem headings_quiet {es : List Event} (h : ∀ e ∈ es, quietEvent e) (inH : Bool) (tl : List Event) : headingsFrom inH [] (es ++ tl) = headingsFrom inH [] tl := by
  induction es with
  | nil => rfl
  | cons e es ih =>
    have he := h e (by simp)
    have h1 : inHeading inH e = inH := by
      unfold quietEvent at he
      unfold inHeading
      split at he <;> (first | exact absurd he id | skip) <;> (split <;> simp_all)
    have h2 : carry inH [] e = [] := by
      unfold carry carryOut
      unfold quietEvent at he
      split
      · rfl
      · split at he <;> (first | exact absurd he id | skip) <;> (split <;> simp_all)
    rw [List.cons_append, headings_cons_quiet he, h1, h2, ih (fun x hx => h x (by simp [hx]))]

/-- In a heading. -/
theorem headings_in {es : List Event} (h : ∀ e ∈ es, quietEvent e) (given : Attr.Attributes) (tl : List Event) : headingsFrom true given (es ++ tl) = headingsFrom true given tl := by
  induction es with
  | nil => rfl
  | cons e es ih =>
    have he := h e (by simp)
    rw [← ih (fun x hx => h x (by simp [hx]))]
    have h1 : inHeading true e = true := by
      cases e with
      | start c a => cases c <;> first | exact he.elim | rfl
      | «end» c => cases c <;> first | exact he.elim | rfl
      | _ => rfl
    simp only [List.cons_append, headingsFrom, h1, carry, if_true]
    cases e with
    | start c a => cases c <;> first | exact he.elim | rfl
    | _ => rfl

theorem quiet_notEnd {e : Event} (h : quietEvent e) : isHeadingEnd e = false := by
  unfold isHeadingEnd
  split
  · exact absurd h id
  · rfl

theorem takeWhile_quiet {es : List Event} (h : ∀ e ∈ es, quietEvent e) (l : Nat) (b : Bool) (id : Bytes) (tl : List Event) :
    (es ++ .end (.heading l b id) :: tl).takeWhile (fun e => !isHeadingEnd e) = es := by
  induction es with
  | nil => rfl
  | cons e es ih =>
    have := quiet_notEnd (h e (by simp))
    rw [List.cons_append, List.takeWhile_cons_of_pos (by simp [this]), ih (fun x hx => h x (by simp [hx]))]

theorem joined_quiet {es : List Event} (h : ∀ e ∈ es, quietEvent e) : ∀ e ∈ joined es, quietEvent e := by
  induction es with
  | nil => intro e he; cases he
  | cons x es ih =>
    have ih := ih (fun y hy => h y (by simp [hy]))
    by_cases hs : ∃ a, x = .str a
    · obtain ⟨a, rfl⟩ := hs
      unfold joined
      split
      · exact ih
      · split
        · rename_i b es' he
          rw [he] at ih
          intro e hm
          rcases List.mem_cons.1 hm with rfl | hm
          · exact trivial
          · exact ih e (by simp [hm])
        · intro e hm
          rcases List.mem_cons.1 hm with rfl | hm
          · exact trivial
          · exact ih e hm
    · have : joined (x :: es) = x :: joined es := by
        cases x <;> first | rfl | exact absurd ⟨_, rfl⟩ hs
      rw [this]
      intro e hm
      rcases List.mem_cons.1 hm with rfl | hm
      · exact h e (by simp)
      · exact ih e hm

mutual
theorem Inl.quiet (i : Inl) : ∀ e ∈ i.events, quietEvent e := by
  match i with
  | .text s | .soft | .dots | .apos | .symbol s | .note s => simp [Inl.events, quietEvent]
  | .esc c | .hard | .nbsp => simp [Inl.events, quietEvent]
  | .dash em => cases em <;> simp [Inl.events, quietEvent]
  | .right d => cases d <;> simp [Inl.events, quietEvent]
  | .auto u =>
    simp only [Inl.events, autoTo]
    simp [quietEvent]
  | .code v _ s => cases v <;> simp [Inl.events, Verb.container, quietEvent]
  | .elem m _ body =>
    have := inls_quiet body
    intro e he
    simp only [Inl.events, List.mem_cons, List.mem_append, List.not_mem_nil, or_false] at he
    rcases he with rfl | he | rfl
    · cases m <;> simp [Mark.starts, quietEvent]
    · exact this e he
    · cases m <;> simp [Mark.ends, quietEvent]
  | .link image body url =>
    have := inls_quiet body
    intro e he
    simp only [Inl.events, List.mem_cons, List.mem_append, List.not_mem_nil, or_false] at he
    rcases he with rfl | he | rfl
    · cases image <;> simp [linkTo, quietEvent]
    · exact this e he
    · cases image <;> simp [linkTo, quietEvent]
theorem inls_quiet (is : List Inl) : ∀ e ∈ inlEvents is, quietEvent e := by
  match is with
  | [] => intro e he; cases he
  | i :: is =>
    intro e he
    rcases List.mem_append.1 he with he | he
    · exact Inl.quiet i e he
    · exact inls_quiet is e he
end

theorem blank_quiet (b : Bool) : ∀ e ∈ blankAfter b, quietEvent e := by
  intro e he
  cases b with
  | true => simp only [blankAfter, ↓reduceIte, List.mem_singleton] at he; subst he; exact trivial
  | false => cases he

theorem listOf_quiet (lbs : List Label) (t : Bool) : quietEvent (.start (listOf lbs t) []) ∧ quietEvent (.end (listOf lbs t)) := by
  match lbs with
  | [] => exact ⟨rfl, trivial⟩
  | lb :: lbs => cases lb <;> exact ⟨rfl, trivial⟩

theorem cells_quiet (als : List Alignment) (head : Bool) (i : Nat) (cells : List (List Inl)) : ∀ e ∈ cellsEvents als head i cells, quietEvent e := by
  induction cells generalizing i with
  | nil => intro e he; cases he
  | cons c cells ih =>
    intro e he
    simp only [cellsEvents, List.mem_cons, List.mem_append] at he
    rcases he with rfl | he | rfl | he
    · exact rfl
    · exact joined_quiet (inls_quiet c) e he
    · exact trivial
    · exact ih _ e he

theorem row_quiet (als : List Alignment) (head : Bool) (cells : List (List Inl)) : ∀ e ∈ rowEvs als head cells, quietEvent e := by
  intro e he
  simp only [rowEvs, List.mem_cons, List.mem_append, List.not_mem_nil, or_false] at he
  rcases he with rfl | he | rfl
  · exact rfl
  · exact cells_quiet _ _ _ _ e he
  · exact trivial

theorem cap_quiet (cap : List Inl) : ∀ e ∈ capEvents cap, quietEvent e := by
  intro e he
  unfold capEvents at he
  split at he
  · cases he
  · simp only [List.mem_cons, List.mem_append, List.not_mem_nil, or_false] at he
    rcases he with rfl | he | rfl
    · exact rfl
    · exact joined_quiet (inls_quiet cap) e he
    · exact trivial

theorem tab_quiet (als : List Alignment) (ls : List TabLine) : ∀ e ∈ tabEvents als ls, quietEvent e := by
  induction ls generalizing als with
  | nil => intro e he; cases he
  | cons l ls ih =>
    cases l with
    | sep a => exact ih a
    | row cells =>
      intro e he
      simp only [tabEvents, List.mem_append] at he
      rcases he with he | he
      · split at he <;> exact row_quiet _ _ _ e he
      · exact ih _ e he

/-- An event that has nothing to do with headings. -/
def stillEvent : Event → Prop
  | .start (.heading ..) _ | .end (.heading ..) => False
  | _ => True

theorem quietEvent.still {e : Event} (h : quietEvent e) : stillEvent e := by
  unfold stillEvent
  split
  · exact h
  · exact h
  · trivial

theorem listOf_still (lbs : List Label) (t : Bool) (as : Attr.Attributes) : stillEvent (.start (listOf lbs t) as) ∧ stillEvent (.end (listOf lbs t)) := by
  match lbs with
  | [] => exact ⟨trivial, trivial⟩
  | lb :: lbs => cases lb <;> exact ⟨trivial, trivial⟩

theorem term_quiet (it : List Blk) (a : Bool) : ∀ e ∈ termEvents it a, quietEvent e := by
  intro e he
  unfold termEvents at he
  split at he
  · simp only [List.mem_cons, List.mem_append] at he
    rcases he with rfl | he | rfl | he
    · exact rfl
    · exact joined_quiet (inls_quiet _) e he
    · exact trivial
    · exact blank_quiet _ e he
  · cases he

mutual
theorem Blk.still (b : Blk) (as : Attr.Attributes) (a : Bool) : ∀ e ∈ b.events as a, stillEvent e := by
  intro e he
  match b with
  | .para is =>
    simp only [Blk.events, List.mem_cons, List.mem_append] at he
    rcases he with rfl | he | rfl | he
    · exact trivial
    · exact (joined_quiet (inls_quiet is) e he).still
    · exact trivial
    · exact (blank_quiet a e he).still
  | .brk =>
    simp only [Blk.events, List.mem_cons] at he
    rcases he with rfl | he
    · exact trivial
    · exact (blank_quiet a e he).still
  | .code _ lang ls =>
    simp only [Blk.events, List.mem_cons, List.mem_append, List.mem_map] at he
    rcases he with rfl | ⟨x, -, rfl⟩ | rfl | he
    · unfold codeOf; split <;> exact trivial
    · exact trivial
    · unfold codeOf; split <;> exact trivial
    · exact (blank_quiet a e he).still
  | .table cap ls =>
    simp only [Blk.events, List.mem_cons, List.mem_append] at he
    rcases he with rfl | he | he | rfl | he
    · exact trivial
    · exact (cap_quiet cap e he).still
    · exact (tab_quiet _ ls e he).still
    · exact trivial
    · exact (blank_quiet a e he).still
  | .quote bs =>
    simp only [Blk.events, List.mem_cons, List.mem_append] at he
    rcases he with rfl | he | rfl | he
    · exact trivial
    · exact blks_still bs _ e he
    · exact trivial
    · exact (blank_quiet a e he).still
  | .div _ cls bs =>
    simp only [Blk.events, List.mem_cons, List.mem_append] at he
    rcases he with rfl | he | rfl | he
    · exact trivial
    · exact blks_still bs _ e he
    · exact trivial
    · exact (blank_quiet a e he).still
  | .list lbs tight items =>
    simp only [Blk.events, List.mem_cons, List.mem_append, List.not_mem_nil, or_false] at he
    rcases he with rfl | he | rfl
    · exact (listOf_still lbs _ as).1
    · exact items_still items lbs tight a e he
    · exact (listOf_still lbs _ as).2
  | .foot label bs =>
    simp only [Blk.events, List.mem_cons, List.mem_append, List.not_mem_nil, or_false] at he
    rcases he with rfl | he | rfl
    · exact trivial
    · exact blks_still bs _ e he
    · exact trivial
  | .attr _ is b => exact Blk.still b _ a e he
theorem blks_still (bs : List Blk) (a : Bool) : ∀ e ∈ blkEvents bs a, stillEvent e := by
  intro e he
  match bs with
  | [] => cases he
  | b :: bs =>
    simp only [blkEvents, List.mem_append] at he
    rcases he with he | he
    · exact Blk.still b _ _ e he
    · exact blks_still bs _ e he
theorem items_still (items : List (List Blk)) (lbs : List Label) (tight a : Bool) : ∀ e ∈ itemEvents lbs tight items a, stillEvent e := by
  intro e he
  match lbs, items with
  | [], _ => simp [itemEvents] at he
  | _ :: _, [] => simp [itemEvents] at he
  | lb :: lbs, it :: its =>
    simp only [itemEvents, List.mem_cons, List.mem_append] at he
    rcases he with he | rfl | he
    · split at he
      · simp only [List.mem_cons, List.mem_append] at he
        rcases he with he | rfl | he
        · exact (term_quiet it _ e he).still
        · cases lb <;> exact trivial
        · exact rest_still it _ e he
      · simp only [List.mem_cons] at he
        rcases he with rfl | he
        · cases lb <;> exact trivial
        · exact blks_still it _ e he
    · cases lb <;> exact trivial
    · exact items_still its lbs tight a e he
theorem rest_still (bs : List Blk) (a : Bool) : ∀ e ∈ restEvents bs a, stillEvent e := by
  intro e he
  match bs with
  | [] => cases he
  | _ :: bs => exact blks_still bs _ e he
end

theorem headings_still {es : List Event} (h : ∀ e ∈ es, stillEvent e) (given : Attr.Attributes) (tl : List Event) :
    headingsFrom false given (es ++ tl) = headingsFrom false (es.foldl (carry false) given) tl := by
  induction es generalizing given with
  | nil => rfl
  | cons e es ih =>
    have he := h e (by simp)
    have h1 : inHeading false e = false := by
      unfold inHeading
      split
      · exact he.elim
      · rfl
      · rfl
    have h2 : headingsFrom false given (e :: (es ++ tl)) = headingsFrom (inHeading false e) (carry false given e) (es ++ tl) := by
      cases e with
      | start c a => cases c <;> first | rfl | exact absurd he id
      | _ => rfl
    rw [List.cons_append, h2, h1, ih (fun x hx => h x (by simp [hx]))]
    rfl

/-- No attributes are left after a block. -/
theorem Blk.clears (b : Blk) (as given : Attr.Attributes) (a : Bool) : (b.events as a).foldl (carry false) given = [] := by
  induction b using Blk.rec_attr generalizing as with
  | attr w is b ih => exact ih _
  | other b hb =>
    cases b with
    | attr w is b => exact (hb w is b rfl).elim
    | list lbs tight items =>
      simp only [Blk.events, List.foldl_cons, List.foldl_append, List.foldl_nil]
      cases lbs with
      | nil => rfl
      | cons lb lbs => cases lb <;> rfl
    | code n lang ls =>
      simp only [Blk.events, List.foldl_cons, List.foldl_append]
      unfold codeOf
      split <;> cases a <;> rfl
    | _ =>
      simp only [Blk.events, List.foldl_cons, List.foldl_append]
      cases a <;> rfl

theorem blks_clear (bs : List Blk) (a : Bool) : (blkEvents bs a).foldl (carry false) [] = [] := by
  induction bs with
  | nil => rfl
  | cons b bs ih => rw [blkEvents, List.foldl_append, Blk.clears, ih]

theorem headings_blks (bs : List Blk) (a : Bool) (tl : List Event) : headingsFrom false [] (blkEvents bs a ++ tl) = headingsFrom false [] tl := by
  rw [headings_still (blks_still bs a), blks_clear]

/-- What is known of a heading. -/
def Head.info (h : Head) : HeadingInfo := ⟨h.id, attrElems h.attrs, plainContent (joined (inlEvents h.title))⟩

theorem headings_flat (S : Stack) (H : List Head) (tl : List Event) (htl : ∀ given, headingsFrom false given tl = []) (given : Attr.Attributes) (hg : H = [] ∨ given = []) :
    headingsFrom false given (flatEvents S H ++ tl) = H.map Head.info := by
  have hends : ∀ T : Stack, ∀ e ∈ T.map (fun s => Event.end (.section s.2)), quietEvent e := by
    intro T e he
    obtain ⟨s, -, rfl⟩ := List.mem_map.1 he
    exact trivial
  induction H generalizing S given with
  | nil =>
    rw [flatEvents]
    have : ∀ given, headingsFrom false given (S.map (fun s => Event.end (.section s.2)) ++ tl) = [] := by
      intro given
      induction S with
      | nil => exact htl given
      | cons s S ih => simpa [headingsFrom, inHeading, carry, carryOut] using ih
    exact this given
  | cons h H ih =>
    obtain rfl : given = [] := by rcases hg with hg | hg; cases hg; exact hg
    simp only [flatEvents, List.append_assoc, List.cons_append, Head.events]
    rw [headings_quiet (hends _)]
    have e1 : headingsFrom false [] (.start (.section h.id) (attrElems h.attrs) :: .start (.heading h.level true h.id) [] :: (joined (inlEvents h.title) ++
        (.end (.heading h.level true h.id) :: (blankAfter (!h.body.isEmpty || !H.isEmpty) ++ (blkEvents h.body (!H.isEmpty) ++
          (flatEvents ((h.level, h.id) :: S.dropWhile (fun s => decide (h.level ≤ s.1))) H ++ tl)))))) =
        ⟨h.id, attrElems h.attrs, plainContent (joined (inlEvents h.title))⟩ :: headingsFrom true (attrElems h.attrs) (joined (inlEvents h.title) ++
        (.end (.heading h.level true h.id) :: (blankAfter (!h.body.isEmpty || !H.isEmpty) ++ (blkEvents h.body (!H.isEmpty) ++
          (flatEvents ((h.level, h.id) :: S.dropWhile (fun s => decide (h.level ≤ s.1))) H ++ tl))))) := by
      simp only [headingsFrom, carry, carryOut, inHeading, List.nil_append, List.append_nil, Bool.false_eq_true, if_false]
      rw [takeWhile_quiet (joined_quiet (inls_quiet h.title))]
      rfl
    rw [e1, headings_in (joined_quiet (inls_quiet h.title))]
    simp only [headingsFrom, inHeading, carry, if_true, List.nil_append]
    by_cases hb : (!h.body.isEmpty || !H.isEmpty) = true
    · rw [hb]
      have e2 : ∀ (given : Attr.Attributes) (X : List Event), headingsFrom false given (blankAfter true ++ X) = headingsFrom false [] X := fun given X => by
        simp [blankAfter, headingsFrom, inHeading, carry, carryOut]
      rw [e2, headings_blks, ih _ _ (.inr rfl)]
      rfl
    · have h1 : h.body = [] ∧ H = [] := by simpa using hb
      obtain ⟨h1, rfl⟩ := h1
      rw [h1]
      have := ih ((h.level, h.id) :: S.dropWhile (fun s => decide (h.level ≤ s.1))) (attrElems h.attrs) (.inl rfl)
      simp only [List.isEmpty_nil, Bool.not_true, Bool.or_false, blankAfter, blkEvents, Bool.false_eq_true, if_false, List.nil_append]
      rw [this]
      rfl

/-- The automatic id is determined. -/
theorem AutoId_unique {used : List Bytes} {s a b : Bytes} (ha : AutoId used s a) (hb : AutoId used s b) : a = b := by
  unfold AutoId at ha hb
  rcases ha with ⟨a1, a2, rfl⟩ | ⟨a1, base, k, rfl, a2, rfl, a3, a4⟩
  · rcases hb with ⟨-, -, rfl⟩ | ⟨b1, -⟩
    · rfl
    · rcases b1 with b1 | b1
      · exact absurd b1 a1
      · exact absurd b1 a2
  · rcases hb with ⟨b1, b2, rfl⟩ | ⟨b1, base, k2, rfl, b2, rfl, b3, b4⟩
    · rcases a1 with a1 | a1
      · exact absurd a1 b1
      · exact absurd a1 b2
    · rcases Nat.lt_trichotomy k k2 with hk | rfl | hk
      · exact absurd (b4 k a2 hk) a3
      · rfl
      · exact absurd (a4 k2 b2 hk) b3

theorem same_ids {used : List Bytes} {H H' : List Head} (h : SameHeads H H') (h1 : IdsOf used (H.map Head.info)) (h2 : IdsOf used (H'.map Head.info)) : H' = H := by
  induction h generalizing used with
  | nil => rfl
  | @cons h id H H' hs ih =>
    simp only [List.map_cons, IdsOf] at h1 h2
    obtain ⟨a, a1, a2, a3⟩ := h1
    obtain ⟨b, b1, b2, b3⟩ := h2
    have hab : a = b := AutoId_unique a1 b1
    subst hab
    have hb : id = h.id := b2.trans a2.symm
    rw [ih a3 b3, hb]

theorem headings_doc (front : List Blk) (b : Bool) (H : List Head) :
    headingsOf (.start .document [] :: (blkEvents front b ++ (flatEvents [] H ++ [.end .document]))) = H.map Head.info := by
  unfold headingsOf
  have e : headingsFrom false [] (.start .document [] :: (blkEvents front b ++ (flatEvents [] H ++ [.end .document]))) =
      headingsFrom false [] (blkEvents front b ++ (flatEvents [] H ++ [.end .document])) := rfl
  rw [e, headings_blks, headings_flat _ _ _ (fun given => by simp [headingsFrom]) _ (.inr rfl)]

/-- The events of a written document. -/
theorem doc_write {d : Doc} (h : d.Ok) (hu : Utf8 d.write) (hlen : d.write.length ≤ 4294967296) {es : List Event} (he : events d.write = .ok es) : es = d.events := by
  obtain ⟨h1, h2, h3⟩ := h
  obtain ⟨evs, hev, rfl⟩ := events_ok he
  obtain ⟨p, -, k2, k3⟩ := offsetEvents_doc hu hev
  have hH := secs_headsOk 0 d.secs h2
  have hw : d.write = (flatLines d.front (headsOf d.secs)).flatten := by
    unfold Doc.write Doc.lines flatLines
    rw [headsOf_isEmpty]
  obtain ⟨E1, E2, S, sp, ⟨s, e, hE⟩, s1, s2⟩ := parse_flat h1 hH hw hu k2
  rw [hE] at k3
  obtain ⟨ev1, g1, g2⟩ := doc_enter k3
  simp only [List.append_assoc] at g2
  obtain ⟨ev2, hd1, g3, g4⟩ := blks_doc d.front h1 _ hu.safe s1 g2
  obtain ⟨H', ev3, hd2, g5, g6, g7⟩ := heads_doc (headsOf d.secs) hH hu.safe s2 g4
  obtain ⟨ev4, g8, g9⟩ := doc_exit g7
  have : ev4 = [] := by
    generalize hb : ([] : List Block.Event) = B at g9
    cases g9 <;> first | rfl | cases hb
  subst this
  have hes : evs.map (·.1) = .start .document [] :: (blkEvents d.front (!(headsOf d.secs).isEmpty) ++ (flatEvents [] H' ++ [.end .document])) := by
    rw [g1, g3, g6, g8]; rfl
  have hids := (C36_heading_ids d.write hu hlen _ he).1
  rw [hes, headings_doc] at hids
  have hspec := doc_flat h2
  rw [hspec, headings_doc] at h3
  have := same_ids g5 h3 hids
  subst this
  rw [hes, hspec]

end Jotdown.Round
