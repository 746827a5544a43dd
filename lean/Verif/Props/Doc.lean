import Verif.Proofs.DocSections
import Verif.Props.Ids
import Verif.Props.Parser
/-! # C37, C43, C47: the events of a document from its blocks -/
namespace Jotdown
open Jotdown

variable {src : Bytes} {pre : PrePass}

/-! ## Determinism -/

theorem Reads.unique {p q q' : Parser} {es es' : List (Event × Span)} (h : Reads p es q) (h' : Reads p es' q') : es = es' ∧ q = q' := by
  induction h generalizing es' with
  | none h =>
    cases h' with
    | none h' => rw [h] at h'; cases h'; exact ⟨rfl, rfl⟩
    | some h' => rw [h] at h'; cases h'
  | some h _ ih =>
    cases h' with
    | none h' => rw [h] at h'; cases h'
    | some h' h2 =>
      rw [h] at h'
      cases h'
      obtain ⟨rfl, rfl⟩ := ih h2
      exact ⟨rfl, rfl⟩

theorem ReadsLines.unique {p : Parser} {ls : List Span} {es es' : List (Event × Span)} (h : ReadsLines p ls es) (h' : ReadsLines p ls es') : es = es' := by
  induction h generalizing es' with
  | nil => cases h'; rfl
  | cons h1 h2 _ ih =>
    cases h' with
    | cons k1 k2 k3 =>
      rw [h1] at k1
      cases k1
      obtain ⟨rfl, rfl⟩ := h2.unique k2
      rw [ih k3]

theorem Content.unique {l : Block.Leaf} {ls : List Span} {cs cs' : List (Event × Span)} (h : Content src pre l ls cs) (h' : Content src pre l ls cs') : cs = cs' := by
  cases h with
  | raw h =>
    cases h' with
    | raw => rfl
    | parsed h' => rw [h] at h'; cases h'
  | parsed h h1 =>
    cases h' with
    | raw h' => rw [h] at h'; cases h'
    | parsed _ h2 => exact h1.unique h2

theorem leaf_split {inl inl' es es' : List Block.Event} {x x' : Block.Event} (hi : ∀ i ∈ inl, i.kind = .inline) (hi' : ∀ i ∈ inl', i.kind = .inline)
    (hx : x.kind ≠ .inline) (hx' : x'.kind ≠ .inline) (h : inl ++ x :: es = inl' ++ x' :: es') : inl = inl' ∧ x = x' ∧ es = es' := by
  induction inl generalizing inl' with
  | nil =>
    cases inl' with
    | nil => simpa using h
    | cons i inl' => simp only [List.nil_append, List.cons_append, List.cons.injEq] at h; rw [h.1] at hx; exact absurd (hi' i (by simp)) hx
  | cons i inl ih =>
    cases inl' with
    | nil => simp only [List.nil_append, List.cons_append, List.cons.injEq] at h; rw [← h.1] at hx'; exact absurd (hi i (by simp)) hx'
    | cons i' inl' =>
      simp only [List.cons_append, List.cons.injEq] at h
      obtain ⟨rfl, h⟩ := h
      obtain ⟨rfl, h2, h3⟩ := ih (fun x hx => hi x (by simp [hx])) (fun x hx => hi' x (by simp [hx])) h
      exact ⟨rfl, h2, h3⟩

/-- The block events and the results of the first pass determine the events. -/
theorem DocEvents.unique {head : Bool} {pend : List Span} {blocks : List Block.Event} {evs evs' : List (Event × Span)}
    (h : DocEvents src pre head pend blocks evs) (h' : DocEvents src pre head pend blocks evs') : evs = evs' := by
  induction h generalizing evs' with
  | nil => cases h'; rfl
  | stale hk _ ih =>
    cases h' with
    | stale _ h => exact ih h
    | leaf k => rw [hk] at k; cases k
    | _ => rename_i k _; rw [hk] at k; cases k
  | attributes hk _ ih =>
    cases h' with
    | attributes _ h => exact ih h
    | leaf k => rw [hk] at k; cases k
    | _ => rename_i k _; rw [hk] at k; cases k
  | blankline hk _ ih =>
    cases h' with
    | blankline _ h => rw [ih h]
    | leaf k => rw [hk] at k; cases k
    | _ => rename_i k _; rw [hk] at k; cases k
  | thematicBreak hk _ ih =>
    cases h' with
    | thematicBreak _ h => rw [ih h]
    | leaf k => rw [hk] at k; cases k
    | _ => rename_i k _; rw [hk] at k; cases k
  | enter hk _ ih =>
    cases h' with
    | enter k h => rw [hk] at k; cases k; rw [ih h]
    | leaf k => rw [hk] at k; cases k
    | _ => rename_i k _; rw [hk] at k; cases k
  | exit hk _ ih =>
    cases h' with
    | exit k h => rw [hk] at k; cases k; rw [ih h]
    | leaf k => rw [hk] at k; cases k
    | _ => rename_i k _; rw [hk] at k; cases k
  | @leaf hd pend e l inl x es cs evs hk hi hx hc _ ih =>
    generalize hB : e :: inl ++ x :: es = B at h'
    cases h' with
    | leaf k1 k2 k3 k4 k5 =>
      simp only [List.cons_append, List.cons.injEq] at hB
      obtain ⟨rfl, hB⟩ := hB
      obtain ⟨rfl, rfl, rfl⟩ := leaf_split hi k2 (by rw [hx]; simp) (by rw [k3]; simp) hB
      rw [hk] at k1
      cases k1
      rw [hc.unique k4, ih k5]
    | nil => simp at hB
    | _ k => simp only [List.cons_append, List.cons.injEq] at hB; rw [← hB.1, hk] at k; cases k

/-! ## Sections -/

theorem offset_body {evs : List (Event × Span)} (hu : Utf8 src) (h : offsetEvents src = .ok evs) :
    ∃ p body evs', Parser.new src = .ok p ∧
      p.blocks = ⟨.enter (.container .document), ⟨0, 0⟩⟩ :: body ++ [⟨.exit (.container .document), ⟨src.length, src.length⟩⟩] ∧ Block.secWalk [] .content 0 body = true ∧
      DocEvents src p.prePass false [] (body ++ [⟨.exit (.container .document), ⟨src.length, src.length⟩⟩]) evs' ∧
      evs = (.start .document [], ⟨0, 0⟩) :: evs' := by
  obtain ⟨p, h1, h2, h3⟩ := offsetEvents_doc hu h
  obtain ⟨body, h4, h5⟩ := Block.C43_sections_nest_by_level src hu p.blocks h2
  rw [h4] at h3
  generalize hB : (⟨.enter (.container .document), ⟨0, 0⟩⟩ : Block.Event) :: body ++ [⟨.exit (.container .document), ⟨src.length, src.length⟩⟩] = B at h3
  rw [List.cons_append] at hB
  cases h3 with
  | enter k h =>
    simp only [List.cons.injEq] at hB
    obtain ⟨rfl, rfl⟩ := hB
    cases k
    exact ⟨p, body, _, h1, h4, h5, h, rfl⟩
  | leaf k => simp only [List.cons_append, List.cons.injEq] at hB; rw [← hB.1] at k; cases k
  | nil => simp at hB
  | _ k => simp only [List.cons.injEq] at hB; rw [← hB.1] at k; cases k

/-- **C43** for the events: the body of every document is a sequence of events whose sections nest by level, each directly
followed by its heading with the same id (see `secEvents`). -/
theorem C43_document_sections (src : Bytes) (hu : Utf8 src) (es : List Event) (h : events src = .ok es) :
    ∃ body, es = .start .document [] :: body ++ [.end .document] ∧ secEvents [] .content 0 body = true := by
  obtain ⟨evs, h1, rfl⟩ := events_ok h
  obtain ⟨p, body, evs', -, -, h2, h3, rfl⟩ := offset_body hu h1
  obtain ⟨evs'', sp, rfl, h4⟩ := h3.sections rfl rfl h2 (by simp)
  exact ⟨evs''.map (·.1), by simp, by simpa only [secAt] using h4⟩

/-- The ids of the headings that have a section. -/
def sectionHeadingIds (es : List Event) : List Bytes :=
  es.filterMap (fun e => match e with
    | .start (.heading _ true id) _ => some id
    | _ => none)

/-- The id of the section that has just started. -/
def SecAt.ids : SecAt → List Bytes
  | .start id _ => [id]
  | _ => []

theorem sec_step {o : List Nat} {s : SecAt} {d : Nat} {e : Event} {es : List Event} (h : secEvents o s d (e :: es) = true) :
    (∃ n id a c o', e = .start (.heading n true id) a ∧ s = .start id c ∧ secEvents o' .content 1 es = true) ∨
    (∃ id a c, e = .start (.section id) a ∧ s.ids = [] ∧ secEvents o (.start id c) 0 es = true) ∨
    (∃ o' s' d', s.ids = [] ∧ s'.ids = [] ∧ secEvents o' s' d' es = true ∧ (∀ n id a, e ≠ .start (.heading n true id) a) ∧ ∀ id a, e ≠ .start (.section id) a) := by
  have other : ∀ o' s' d', s.ids = [] → s'.ids = [] → secEvents o' s' d' es = true → (∀ n id a, e ≠ .start (.heading n true id) a) → (∀ id a, e ≠ .start (.section id) a) →
      ∃ o' s' d', s.ids = [] ∧ s'.ids = [] ∧ secEvents o' s' d' es = true ∧ (∀ n id a, e ≠ .start (.heading n true id) a) ∧ ∀ id a, e ≠ .start (.section id) a :=
    fun o' s' d' h1 h2 h3 h4 h5 => ⟨o', s', d', h1, h2, h3, h4, h5⟩
  unfold secEvents at h
  cases s with
  | start id c =>
    split at h
    · rename_i h0
      cases h0
      simp only [Bool.and_eq_true, beq_iff_eq] at h
      obtain ⟨⟨⟨⟨rfl, -⟩, -⟩, -⟩, h⟩ := h
      exact .inl ⟨_, _, _, _, _, rfl, rfl, h⟩
    · cases h
    all_goals rename_i h0; first | exact absurd rfl (h0 _ _) | cases h0
  | closed n =>
    cases e with
    | start c a =>
      cases c with
      | «section» id =>
        simp only [Bool.and_eq_true] at h
        exact .inr (.inl ⟨_, _, _, rfl, rfl, h.2⟩)
      | heading n hs id => cases hs <;> cases h
      | _ => cases h
    | «end» c =>
      cases c with
      | «section» id =>
        simp only [Bool.and_eq_true] at h
        cases o with
        | nil => cases h.2
        | cons n o' => exact .inr (.inr (other o' (.closed n) 0 rfl rfl h.2 (by simp) (by simp)))
      | _ => cases h
    | attributes a => exact .inr (.inr (other _ (.closed n) _ rfl rfl h (by simp) (by simp)))
    | _ => cases h
  | content =>
    cases e with
    | start c a =>
      cases c with
      | «section» id =>
        simp only [Bool.and_eq_true] at h
        exact .inr (.inl ⟨_, _, _, rfl, rfl, h.2⟩)
      | heading n hs id =>
        cases hs with
        | true => simp at h
        | false =>
          simp only [Bool.and_eq_true] at h
          exact .inr (.inr (other _ .content _ rfl rfl h.2 (by simp) (by simp)))
      | _ => exact .inr (.inr (other _ .content _ rfl rfl h (by simp) (by simp)))
    | «end» c =>
      by_cases hsec : ∃ id, c = .section id
      · obtain ⟨id, rfl⟩ := hsec
        simp only [Bool.and_eq_true] at h
        cases o with
        | nil => cases h.2
        | cons n o' => exact .inr (.inr (other o' (.closed n) 0 rfl rfl h.2 (by simp) (by simp)))
      · have h' : (if isInline c then secEvents o .content d es else d != 0 && secEvents o .content (d - 1) es) = true := by
          cases c <;> first | exact h | exact absurd ⟨_, rfl⟩ hsec
        split at h'
        · exact .inr (.inr (other _ .content _ rfl rfl h' (by simp) (by simp)))
        · simp only [Bool.and_eq_true] at h'
          exact .inr (.inr (other _ .content _ rfl rfl h'.2 (by simp) (by simp)))
    | _ => exact .inr (.inr (other _ .content _ rfl rfl h (by simp) (by simp)))

theorem sec_ids {es : List Event} : ∀ {o : List Nat} {s : SecAt} {d : Nat}, secEvents o s d es = true → sectionHeadingIds es = s.ids ++ sectionIds es := by
  induction es with
  | nil =>
    intro o s d h
    unfold secEvents at h
    cases s <;> simp [SecAt.isStart, SecAt.ids, sectionHeadingIds, sectionIds] at h ⊢
  | cons e es ih =>
    intro o s d h
    rcases sec_step h with ⟨n, id, a, c, o', rfl, rfl, hr⟩ | ⟨id, a, c, rfl, h1, hr⟩ | ⟨o', s', d', h1, h2, hr, h3, h4⟩
    · show id :: sectionHeadingIds es = [id] ++ sectionIds es
      rw [ih hr]; rfl
    · show sectionHeadingIds es = s.ids ++ id :: sectionIds es
      rw [ih hr, h1]; rfl
    · have e1 : sectionHeadingIds (e :: es) = sectionHeadingIds es := by
        unfold sectionHeadingIds
        rw [List.filterMap_cons]
        split
        · rfl
        · rename_i h5
          split at h5
          · exact absurd rfl (h3 _ _ _)
          · cases h5
      have e2 : sectionIds (e :: es) = sectionIds es := by
        unfold sectionIds
        rw [List.filterMap_cons]
        split
        · rfl
        · rename_i h5
          split at h5
          · exact absurd rfl (h4 _ _)
          · cases h5
      rw [e1, e2, ih hr, h1, h2]

theorem sec_headed {es : List Event} : ∀ {o : List Nat} {s : SecAt} {d : Nat}, secEvents o s d es = true →
    (∀ id c, s = .start id c → ∀ a, sectionsHaveHeadings (.start (.section id) a :: es) = true) ∧ (s.ids = [] → sectionsHaveHeadings es = true) := by
  induction es with
  | nil =>
    intro o s d h
    unfold secEvents at h
    refine ⟨?_, fun _ => rfl⟩
    rintro id c rfl
    simp [SecAt.isStart] at h
  | cons e es ih =>
    intro o s d h
    rcases sec_step h with ⟨n, id, a, c, o', rfl, rfl, hr⟩ | ⟨id, a, c, rfl, h1, hr⟩ | ⟨o', s', d', h1, h2, hr, h3, h4⟩
    · refine ⟨?_, fun h => by cases h⟩
      intro id' c' hs a'
      cases hs
      have := (ih hr).2 rfl
      simp [sectionsHaveHeadings, this]
    · refine ⟨?_, fun _ => (ih hr).1 id c rfl a⟩
      rintro id' c' rfl
      cases h1
    · refine ⟨?_, fun _ => ?_⟩
      · rintro id' c' rfl
        cases h1
      · have := (ih hr).2 h2
        cases e with
        | start c a =>
          cases c with
          | «section» id => exact absurd rfl (h4 _ _)
          | _ => exact this
        | _ => exact this

/-- Each start of a section is directly followed by the start of a heading that has the same id and tells that it has a section, and all headings that have
a section are preceded by one. -/
theorem section_ids (src : Bytes) (hu : Utf8 src) (es : List Event) (h : events src = .ok es) :
    sectionsHaveHeadings es = true ∧ sectionIds es = sectionHeadingIds es := by
  obtain ⟨body, rfl, h3⟩ := C43_document_sections src hu es h
  refine ⟨?_, ?_⟩
  · have h4 := (sec_headed h3).2 rfl
    have key : ∀ {es : List Event}, sectionsHaveHeadings es = true → sectionsHaveHeadings (es ++ [.end .document]) = true := by
      intro es
      fun_induction sectionsHaveHeadings es with
      | case1 => intro; rfl
      | case2 => intro h; cases h
      | case3 id a n hs id' a' es ih =>
        intro h
        simp only [Bool.and_eq_true] at h
        simp only [List.cons_append, sectionsHaveHeadings, Bool.and_eq_true]
        exact ⟨h.1, ih h.2⟩
      | case4 => intro h; cases h
      | case5 e es h1 h2 h3 ih =>
        intro h
        cases e with
        | start c a =>
          cases c with
          | «section» id =>
            cases es with
            | nil => exact absurd rfl (h1 _ _ rfl)
            | cons e es => exact (h3 _ _ rfl).elim
          | _ => exact ih h
        | _ => exact ih h
    exact key h4
  · have := sec_ids h3
    simp only [SecAt.ids, List.nil_append] at this
    simp only [sectionIds, sectionHeadingIds, List.cons_append, List.filterMap_cons, List.filterMap_append, List.filterMap_nil, List.append_nil] at this ⊢
    exact this.symm

/-! ## Attributes of blocks -/

/-- **C47.** The events of a document are those its block events have according to the specification `DocEvents`: in particular, the attributes before a block
are exactly the attributes of the start of this block (the ones of several lines one after the other), whose range starts with the first of them; before a blank line
and at the end of a container they become an event of their own. -/
theorem C47_document_events (src : Bytes) (hu : Utf8 src) (evs : List (Event × Span)) (h : offsetEvents src = .ok evs) :
    ∃ p, Parser.new src = .ok p ∧ Block.parse src = .ok p.blocks ∧ DocEvents src p.prePass false [] p.blocks evs ∧
      ∀ evs', DocEvents src p.prePass false [] p.blocks evs' → evs' = evs := by
  obtain ⟨p, h1, h2, h3⟩ := offsetEvents_doc hu h
  exact ⟨p, h1, h2, h3, fun evs' h' => h'.unique h3⟩

theorem attrs_inline {cs : List (Event × Span)} (h : ∀ e ∈ cs, InlineEv pre e.1) (K : List Event) :
    attributesOfBlocks true (cs.map (·.1) ++ K) = attributesOfBlocks true K := by
  induction cs with
  | nil => rfl
  | cons e cs ih =>
    have h1 := h e (by simp)
    have ih := ih (fun x hx => h x (by simp [hx]))
    obtain ⟨e, sp⟩ := e
    simp only at h1
    rw [List.map_cons, List.cons_append]
    cases e with
    | start c a => simp only [attributesOfBlocks]; rw [if_pos h1.1]; exact ih
    | «end» c => simp only [attributesOfBlocks]; rw [if_pos h1.1]; exact ih
    | thematicBreak => exact h1.elim
    | blankline => exact h1.elim
    | _ => exact ih

theorem attrs_flush (pend : List Span) (K : List Event) : attributesOfBlocks false ((flush src pend).map (·.1) ++ K) = attrsIn src pend ++ attributesOfBlocks false K := by
  cases pend <;> rfl

theorem name_isLeaf {ids : Nat → Bytes} {head : Bool} {n : Block.Node} : isLeafBlock (nodeName ids head n) = (match n with | .leaf _ => true | .container _ => false) := by
  cases n with
  | container c =>
    cases c with
    | list ty t => cases ty <;> rfl
    | listItem k => cases k <;> rfl
    | _ => rfl
  | leaf l =>
    cases l with
    | codeBlock lang => unfold nodeName; simp only; split <;> rfl
    | _ => rfl

theorem attrsIn_append (a b : List Span) : attrsIn src (a ++ b) = attrsIn src a ++ attrsIn src b := by
  simp [attrsIn]

theorem DocEvents.attrs {head : Bool} {pend : List Span} {blocks : List Block.Event} {evs : List (Event × Span)} (h : DocEvents src pre head pend blocks evs) :
    attributesOfBlocks false (evs.map (·.1)) = attrsIn src (pend ++ attributeLines blocks) := by
  induction h with
  | nil => rfl
  | @stale hd pend e es evs hk _ ih => rw [ih]; simp [attributeLines, hk]
  | @attributes hd pend e es evs hk _ ih => rw [ih]; simp [attributeLines, hk]
  | @blankline hd pend e es evs hk _ ih =>
    rw [List.map_append, attrs_flush, attrsIn_append]
    simp only [List.map_cons, attributesOfBlocks, ih]
    simp [attributeLines, hk]
  | @thematicBreak hd pend e es evs hk _ ih =>
    simp only [List.map_cons, attributesOfBlocks, ih]
    rw [← attrsIn_append]
    simp [attributeLines, hk]
  | @enter hd pend e c es evs hk _ ih =>
    simp only [List.map_cons, attributesOfBlocks]
    rw [nodeName_block, name_isLeaf, if_neg (by simp), ih, ← attrsIn_append]
    simp [attributeLines, hk]
  | @exit hd pend e c es evs hk _ ih =>
    rw [List.map_append, attrs_flush, attrsIn_append]
    simp only [List.map_cons, attributesOfBlocks]
    rw [nodeName_block, ih]
    simp [attributeLines, hk]
  | @leaf hd pend e l inl x es cs evs hk hi hx hc _ ih =>
    simp only [List.map_cons, attributesOfBlocks]
    rw [nodeName_block, name_isLeaf, List.map_append, if_neg (by simp), attrs_inline (content_inline hc)]
    simp only [List.map_cons, attributesOfBlocks]
    rw [nodeName_block, if_neg (by simp), ih, ← attrsIn_append]
    have h1 : inl.filter (fun e => e.kind == .atom .attributes) = [] := by
      rw [List.filter_eq_nil_iff]
      intro i h
      simp [hi i h]
    simp only [attributeLines, List.cons_append, List.filter_cons, List.filter_append, h1, List.nil_append, hk, hx]
    rfl

/-- **C47.** No attribute before a block is lost, repeated or moved past another one: the attributes of all blocks, thematic breaks and events
between blocks, in the order of the document, are those in the lines of attributes. -/
theorem C47_no_attribute_lost (src : Bytes) (hu : Utf8 src) (es : List Event) (h : events src = .ok es) :
    ∃ blocks, Block.parse src = .ok blocks ∧ attributesOfBlocks false es = attrsIn src (attributeLines blocks) := by
  obtain ⟨evs, h1, rfl⟩ := events_ok h
  obtain ⟨p, -, h2, h3⟩ := offsetEvents_doc hu h1
  exact ⟨p.blocks, h2, h3.attrs⟩

example : (do
    let es ← events (b! "{.a}\n{k=v}\npara\n\n{.b}\n\n> {.c}\n\n{.d}\n***\n")
    pure (attributesOfBlocks false es, es.take 6)) =
    .ok ([(.cls, b! "a"), (.pair (b! "k"), b! "v"), (.cls, b! "b"), (.cls, b! "c"), (.cls, b! "d")],
      [.start .document [], .start .paragraph [(.cls, b! "a"), (.pair (b! "k"), b! "v")], .str (b! "para"), .end .paragraph, .blankline, .attributes [(.cls, b! "b")]]) := by
  decide +kernel

example : (do
    let es ← events (b! "# A\n\n## B *b*\n\n> # C\n\n# D\n")
    pure (sectionIds es, headingIds es, secEvents [] .content 0 (es.drop 1).dropLast)) =
    .ok ([b! "A", b! "B-b", b! "D"], [b! "A", b! "B-b", b! "C", b! "D"], true) := by decide +kernel

end Jotdown
