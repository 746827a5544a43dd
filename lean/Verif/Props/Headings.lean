import Verif.Proofs.OutlineDoc
import Verif.Proofs.ParseInv
/-! # C36, C37, C38: headings, sections and references

The theorems hold for every run that does not panic. They speak about the events of the document only: its headings
(`headingsOf`) and its link definitions (`definitionsOf`) are read off the events. -/
namespace Jotdown
open Jotdown
variable {src : Bytes} {pre : PrePass}

/-! ## The contents of headings -/

/-- The headings with these lines. -/
def LinesOf (src : Bytes) (pre : PrePass) : List HeadingInfo → List (List Span) → Prop
  | [], [] => True
  | i :: is, ls :: lss => (∃ cs, ReadsLines (freshParser src pre) ls cs ∧ i.content = plainContent (cs.map (·.1))) ∧ LinesOf src pre is lss
  | _, _ => False

theorem headingSpans_inline {inl : List Block.Event} (h : ∀ i ∈ inl, i.kind = .inline) (K : List Block.Event) : headingSpans (inl ++ K) = headingSpans K := by
  induction inl with
  | nil => rfl
  | cons e inl ih =>
    rw [List.cons_append, headingSpans]
    simp only [h e (by simp), ih (fun i hi => h i (by simp [hi]))]

theorem takeWhile_inline {inl : List Block.Event} (h : ∀ i ∈ inl, i.kind = .inline) {x : Block.Event} (hx : x.kind ≠ .inline) (K : List Block.Event) :
    (inl ++ x :: K).takeWhile (fun e => e.kind == .inline) = inl := by
  induction inl with
  | nil => simp [hx]
  | cons e inl ih => simp [h e (by simp), ih (fun i hi => h i (by simp [hi]))]

theorem takeWhile_content {cs : List Event} (h : cs.all (fun e => !isHeadingEnd e) = true) {x : Event} (hx : isHeadingEnd x = true) (K : List Event) :
    (cs ++ x :: K).takeWhile (fun e => !isHeadingEnd e) = cs := by
  induction cs with
  | nil => simp [hx]
  | cons e cs ih =>
    simp only [List.all_cons, Bool.and_eq_true] at h
    rw [List.cons_append, List.takeWhile_cons, if_pos h.1, ih h.2]

theorem outline_lines {head : Bool} {pend : List Span} {blocks : List Block.Event} {evs : List (Event × Span)} (h : DocEvents src pre head pend blocks evs) :
    ∀ given, LinesOf src pre (headingsFrom false given (evs.map (·.1))) (headingSpans blocks) := by
  induction h with
  | nil => intro given; trivial
  | stale hk _ ih => intro given; rw [headingSpans]; simp only [hk]; exact ih given
  | attributes hk _ ih => intro given; rw [headingSpans]; simp only [hk]; exact ih given
  | @blankline hd pend e es evs hk _ ih =>
    intro given
    rw [headingSpans, List.map_append, (walk_flush pend given _).1]
    simp only [hk]
    exact ih []
  | thematicBreak hk _ ih => intro given; rw [headingSpans]; simp only [hk]; exact ih []
  | enter hk _ ih =>
    intro given
    rw [headingSpans, List.map_cons, (walk_enter _ _ _ _ _ _).1]
    simp only [hk]
    exact ih _
  | @exit hd pend e c es evs hk _ ih =>
    intro given
    rw [headingSpans, List.map_append, (walk_flush pend given _).1, List.map_cons, (walk_exit _ _ _ _ _).1]
    simp only [hk]
    exact ih _
  | @leaf hd pend e l inl x es cs evs hk hi hx hc _ ih =>
    intro given
    have hxk : x.kind ≠ .inline := by rw [hx]; simp
    have hx2 : headingSpans (x :: es) = headingSpans es := by rw [headingSpans]; simp only [hx]
    rw [List.cons_append, headingSpans, takeWhile_inline hi hxk, headingSpans_inline hi, hx2]
    simp only [List.map_cons, List.map_append, hk]
    by_cases hl : plainLeaf l = true
    · rw [(walk_leaf hl _ _ _).1.1]
      obtain ⟨given', w1, -⟩ := (walk_inline (content_inline hc) (given ++ attrsIn src pend) (.end (nodeName (idAt pre) hd (.leaf l)) :: evs.map (·.1))).1
      rw [w1, (walk_leaf hl _ [] _).2.1]
      have := ih []
      cases l <;> first | exact this | cases hl
    · cases l with
      | heading level hsec pos =>
        obtain ⟨-, w1, -, w3⟩ := walk_inline (content_inline hc) (given ++ attrsIn src pend) (.end (nodeName (idAt pre) hd (.leaf (.heading level hsec pos))) :: evs.map (·.1))
        simp only [nodeName] at w1 ⊢
        rw [hd_start, w1, hd_end, takeWhile_content w3 rfl]
        cases hc with
        | raw hr => cases hr
        | parsed _ hc => exact ⟨⟨cs, hc, rfl⟩, ih _⟩
      | linkDefinition label =>
        cases hc with
        | parsed hr _ => cases hr
        | raw _ =>
          have w1 := (walk_raw (src := src) (inl.map (·.span)) (given ++ attrsIn src pend) (.end (nodeName (idAt pre) hd (.leaf (.linkDefinition label))) :: evs.map (·.1))).1
          simp only [nodeName] at w1 ⊢
          rw [hd_def, w1, hd_defEnd]
          exact ih _
      | _ => exact absurd rfl hl

theorem headingsFrom_ids (inH : Bool) (given : Attr.Attributes) (es : List Event) : (headingsFrom inH given es).map (·.id) = headingIds es := by
  induction es generalizing inH given with
  | nil => rfl
  | cons e es ih =>
    have key : ∀ inH given, (headingsFrom inH given es).map (·.id) = headingIds es := fun a b => ih a b
    cases e with
    | start c a => cases c <;> simp [headingsFrom, headingIds, ih] <;> rfl
    | _ => simp [headingsFrom, headingIds, ih] <;> rfl

/-- The first pass has assigned the ids and texts according to the contents. -/
theorem ids_of (hu : Utf8 src) {used : List Bytes} {hs : List Heading} {infos : List HeadingInfo} {lss : List (List Span)} (ha : AutoIds src used hs lss)
    (hl : LinesOf src pre infos lss) (hc : ∀ ls ∈ lss, ∃ lo hi inl, Block.InlChain src true lo inl hi ∧ ls = inl.map (·.span))
    (hid : hs.map (·.id) = infos.map (·.id)) (hov : hs.map (·.idOverride) = infos.map (fun i => idAttribute i.attrs)) :
    IdsOf used infos ∧ hs.map (·.text) = infos.map (fun i => headingText i.content) := by
  induction hs generalizing used infos lss with
  | nil =>
    cases infos with
    | nil => exact ⟨trivial, rfl⟩
    | cons => cases hid
  | cons h hs ih =>
    cases infos with
    | nil => cases hid
    | cons i infos =>
      cases lss with
      | nil => cases ha
      | cons ls lss =>
        obtain ⟨⟨content, ⟨es', hd', hcont⟩, htext, hauto⟩, ha⟩ := ha
        obtain ⟨⟨cs, hr, hic⟩, hl⟩ := hl
        simp only [List.map_cons, List.cons.injEq] at hid hov
        obtain ⟨r1, r2⟩ := ih ha hl (fun ls h => hc ls (by simp [h])) hid.2 hov.2
        obtain ⟨lo, hi, inl, hch, rfl⟩ := hc ls (by simp)
        obtain ⟨es, hd, hpc⟩ := lines_drains hr
        have heq : es = es' := Inline.drains_eps hu.safe hu.bd hch hd hd'
        have hcc : i.content = content := by
          rw [hic, hpc, heq, hcont]; rfl
        refine ⟨⟨h.idAuto, by rw [hcc]; exact hauto, ?_, r1⟩, by simp only [List.map_cons, r2, htext, hcc]⟩
        rw [← hid.1, Heading.id, hov.1]

theorem heading_of_info {hs : List Heading} {infos : List HeadingInfo} (hid : hs.map (·.id) = infos.map (·.id))
    (ht : hs.map (·.text) = infos.map (fun i => headingText i.content)) {h : Heading} (hh : h ∈ hs) : ∃ i ∈ infos, headingText i.content = h.text ∧ i.id = h.id := by
  induction hs generalizing infos with
  | nil => cases hh
  | cons a hs ih =>
    cases infos with
    | nil => cases hid
    | cons i infos =>
      simp only [List.map_cons, List.cons.injEq] at hid ht
      rcases List.mem_cons.1 hh with rfl | hh
      · exact ⟨i, by simp, ht.1.symm, hid.1.symm⟩
      · obtain ⟨j, hj, h1⟩ := ih hid.2 ht.2 hh
        exact ⟨j, by simp [hj], h1⟩

/-- What the parser knows after its first pass is what the events of the document show. -/
theorem outline_ok (hu : Utf8 src) (hlen : src.length ≤ 4294967296) {es : List Event} (h : events src = .ok es) {p : Parser} (hp : Parser.new src = .ok p) :
    IdsOf [] (headingsOf es) ∧ p.prePass.headings.map (·.id) = (headingsOf es).map (·.id) ∧
    p.prePass.headings.map (·.text) = (headingsOf es).map (fun i => headingText i.content) ∧ p.prePass.linkDefinitions = (definitionsOf es).reverse := by
  obtain ⟨evs, h3, rfl⟩ := events_ok h
  obtain ⟨p', h4, h5, h6⟩ := offsetEvents_doc hu h3
  rw [hp] at h4
  cases h4
  obtain ⟨ip', g1, g2, -⟩ := new_ok hp
  have h2 := parser_headings hu hp
  unfold PrePass.new at g2
  obtain ⟨s, g3, g2⟩ := bind_ok g2
  simp only [Pure.pure, Except.pure, Except.ok.injEq, Prod.mk.injEq] at g2
  obtain ⟨⟨hs', k1, k2⟩, k3⟩ := outline_loop h6 (given := []) (staleOk_parse hu h5) (.inl rfl) g3
  have hpre : p.prePass.headings = hs' := by rw [← g2.1]; simpa using k1
  have hdef : p.prePass.linkDefinitions = (definitionsOf (evs.map (·.1))).reverse := by rw [← g2.1]; simpa [definitionsOf] using k3
  have hid : p.prePass.headings.map (·.id) = (headingsOf (evs.map (·.1))).map (·.id) := by
    have := parser_headingIds hu hlen h hp
    rw [← this, headingsOf, headingsFrom_ids]
  have hch : ∀ ls ∈ headingSpans p.blocks, ∃ lo hi inl, Block.InlChain src true lo inl hi ∧ ls = inl.map (·.span) := by
    obtain ⟨bs, hbs, hbt⟩ := ((Block.parse_shape hu).of_ok h5).bt
    rw [hbs, headingSpans]
    exact headingSpans_chains hbt
  obtain ⟨r1, r2⟩ := ids_of hu h2 (outline_lines h6 []) hch hid (by rw [hpre]; exact k2)
  exact ⟨r1, hid, r2, hdef⟩

/-! ## Properties -/

/-- **C36.** Each heading of a document has the id attribute given to it, and otherwise an automatic id: the text of its contents with
whitespace and punctuation normalised, made different from the automatic ids of the headings before by a number if needed (`IdsOf`). -/
theorem C36_heading_ids (src : Bytes) (hu : Utf8 src) (hlen : src.length ≤ 4294967296) (es : List Event) (h : events src = .ok es) :
    IdsOf [] (headingsOf es) ∧ (headingsOf es).map (·.id) = headingIds es := by
  obtain ⟨evs, h3, rfl⟩ := events_ok h
  obtain ⟨p, hp, -⟩ := offsetEvents_doc hu h3
  exact ⟨(outline_ok hu hlen h hp).1, headingsFrom_ids _ _ _⟩

/-- The automatic ids are pairwise different and not empty. -/
theorem IdsOf.unique {used : List Bytes} {hs : List HeadingInfo} (h : IdsOf used hs) (hno : ∀ i ∈ hs, idAttribute i.attrs = none) :
    (hs.map (·.id)).Nodup ∧ (∀ x ∈ hs.map (·.id), x ∉ used) ∧ [] ∉ hs.map (·.id) := by
  induction hs generalizing used with
  | nil => simp
  | cons i hs ih =>
    obtain ⟨auto, h1, h2, h3⟩ := h
    rw [hno i (by simp), Option.getD_none] at h2
    obtain ⟨f1, f2⟩ := h1.fresh
    obtain ⟨i1, i2, i3⟩ := ih h3 (fun i hi => hno i (by simp [hi]))
    rw [List.map_cons, List.nodup_cons, h2]
    refine ⟨⟨fun hm => i2 _ hm (by simp), i1⟩, ?_, ?_⟩
    · intro x hx
      rcases List.mem_cons.1 hx with rfl | hx
      · exact f1
      · exact fun hu => i2 _ hx (by simp [hu])
    · intro hm
      rcases List.mem_cons.1 hm with hm | hm
      · exact f2 hm.symm
      · exact i3 hm

/-- **C36.** If no heading of a document is given an `id` attribute, then the ids of all its headings are distinct and not empty. -/
theorem C36_unique_without_override (src : Bytes) (hu : Utf8 src) (hlen : src.length ≤ 4294967296) (es : List Event)
    (h : events src = .ok es) (hno : ∀ i ∈ headingsOf es, idAttribute i.attrs = none) : (headingIds es).Nodup ∧ [] ∉ headingIds es := by
  obtain ⟨h1, h2⟩ := C36_heading_ids src hu hlen es h
  obtain ⟨h3, -, h4⟩ := h1.unique hno
  rw [← h2]
  exact ⟨h3, h4⟩

/-- **C36.** The id attribute of a heading without a section counts, whatever else was given before. -/
theorem C36_own_attribute (src : Bytes) (hu : Utf8 src) (hlen : src.length ≤ 4294967296) (es : List Event) (h : events src = .ok es)
    (level : Nat) (hasSection : Bool) (id v : Bytes) (a : Attr.Attributes) (hm : Event.start (.heading level hasSection id) a ∈ es)
    (ha : idAttribute a = some v) : id = v := by
  obtain ⟨h1, -⟩ := C36_heading_ids src hu hlen es h
  have hmem : ∀ {inH : Bool} {given : Attr.Attributes} {es : List Event}, Event.start (.heading level hasSection id) a ∈ es →
      ∃ i ∈ headingsFrom inH given es, i.id = id ∧ ∃ g, i.attrs = g ++ a := by
    intro inH given es
    induction es generalizing inH given with
    | nil => intro h; cases h
    | cons e es ih =>
      intro hm
      rcases List.mem_cons.1 hm with rfl | hm
      · exact ⟨⟨id, given ++ a, plainContent (es.takeWhile (fun e => !isHeadingEnd e))⟩, by unfold headingsFrom; simp, rfl, given, rfl⟩
      · obtain ⟨i, hi, hh⟩ := ih hm
        exact ⟨i, by unfold headingsFrom; exact List.mem_append_right _ hi, hh⟩
  have hids : ∀ {used : List Bytes} {hs : List HeadingInfo}, IdsOf used hs → ∀ i ∈ hs, ∀ v, idAttribute i.attrs = some v → i.id = v := by
    intro used hs
    induction hs generalizing used with
    | nil => intro _ i hi; cases hi
    | cons j hs ih =>
      intro h i hi v hv
      obtain ⟨auto, -, h2, h3⟩ := h
      rcases List.mem_cons.1 hi with rfl | hi
      · rw [h2, hv]; rfl
      · exact ih h3 i hi v hv
  obtain ⟨i, hi, rfl, g, hg⟩ := hmem (inH := false) (given := []) hm
  refine hids h1 i hi v ?_
  rw [hg]
  unfold idAttribute at ha ⊢
  rw [List.reverse_append, List.find?_append]
  obtain ⟨e, he, hv⟩ := Option.map_eq_some_iff.1 ha
  rw [he]
  simp [hv]

example : (do
    let es ← events (b! "# Hello, World\n\n{#x}\n## Hello World\n\n# ...\n\n# ...\n")
    pure (headingIds es, sectionIds es)) =
    .ok ([b! "Hello-World", b! "x", b! "s-1", b! "s-2"], [b! "Hello-World", b! "x", b! "s-1", b! "s-2"]) := by
  decide +kernel

/-- **C36/C37, finding.** The explicit id of a heading is also given to the headings after it up to the next other block:
the first pass forgets pending attributes only at other events. The ids of headings are thus not unique even though
one `id` attribute occurs. -/
theorem C36_override_leaks : (do
    let es ← events (b! "{#a}\n# H1\n## H2\n")
    pure (headingIds es)) = .ok [b! "a", b! "a"] := by decide +kernel

set_option synthInstance.maxSize 2000 in
/-- The headings and definitions of a document; the attributes of the block quote are also given to the heading. -/
example : (do
    let es ← events (b! "{#x}\n> # *A*\n> b\n\n{.k}\n[r]: u\n  v\n")
    pure (headingsOf es, definitionsOf es)) =
    .ok ([⟨b! "x", [(.id, b! "x")], [some 65, none, some 98]⟩], [(b! "r", b! "uv", [(.cls, b! "k")])]) := by
  decide +kernel

/-- **C37.** Each start of a section is directly followed by the start of a heading that has the same id and tells that it has a section, all headings that have
a section are preceded by one, and the ids of the headings are those of C36. (By C32, the ids at the ends are those at the starts.) -/
theorem C37_section_ids (src : Bytes) (hu : Utf8 src) (hlen : src.length ≤ 4294967296) (es : List Event) (h : events src = .ok es) :
    IdsOf [] (headingsOf es) ∧ sectionsHaveHeadings es = true ∧ sectionIds es = sectionHeadingIds es :=
  ⟨(C36_heading_ids src hu hlen es h).1, section_ids src hu es h⟩

/-- `R` is how references are resolved: to the last definition of the label with its attributes, otherwise to a heading with the label as its text, otherwise not. -/
def ResolvesIn (defs : List (Bytes × Bytes × Attr.Attributes)) (headings : List HeadingInfo) (R : Resolver) : Prop := ∀ label,
  (∀ url a, lastDefinition defs label = some (url, a) → R label = (url, .reference, a)) ∧
  (lastDefinition defs label = none →
    (∃ h ∈ headings, headingText h.content = label ∧ R label = (b! "#" ++ h.id, .reference, [])) ∨
    ((∀ h ∈ headings, headingText h.content ≠ label) ∧ R label = (label, .unresolved, [])))

theorem resolve_resolvesIn (hu : Utf8 src) (hlen : src.length ≤ 4294967296) {es : List Event} (h : events src = .ok es) {p : Parser} (hp : Parser.new src = .ok p) :
    ResolvesIn (definitionsOf es) (headingsOf es) (resolve p.prePass) := by
  intro label
  obtain ⟨-, k1, k2, k3⟩ := outline_ok hu hlen h hp
  obtain ⟨ip', h3, h4, h5⟩ := new_ok hp
  obtain ⟨-, -, -, k4⟩ := prePass_ok hu h3 h4
  rw [linkDefinition_last k3]
  unfold resolve refTarget
  refine ⟨?_, ?_⟩
  · intro url a hd
    rw [hd]; rfl
  · intro hd
    rw [hd]
    simp only [Option.map_none, Option.getD_none]
    rcases byTag k4 label with ⟨h6, h7⟩ | ⟨hh, hm, h6, h7⟩
    · rw [h6]
      refine .inr ⟨fun i hi hc => ?_, rfl⟩
      have : headingText i.content ∈ p.prePass.headings.map (·.text) := by rw [k2]; exact List.mem_map.2 ⟨i, hi, rfl⟩
      obtain ⟨x, hx, hxt⟩ := List.mem_map.1 this
      exact h7 x hx (hxt.trans hc)
    · rw [h7]
      obtain ⟨i, hi, hi1, hi2⟩ := heading_of_info k1 k2 hm
      exact .inl ⟨i, hi, hi1.trans h6, by rw [hi2]⟩

/-- **C38.** How the parser resolves a reference with the label `tag` after its first pass: to the last definition with the label, in the order of
the document; else to the id of a heading whose text is the label; else it is unresolved and the label itself
is the destination. On entering, the attributes of the definition come before those of the link. -/
theorem C38_reference (src : Bytes) (hu : Utf8 src) (hlen : src.length ≤ 4294967296) (es : List Event) (h : events src = .ok es) (p : Parser)
    (hp : Parser.new src = .ok p) (q : Parser) (hq : q.prePass = p.prePass) :
    ∃ R, ResolvesIn (definitionsOf es) (headingsOf es) R ∧
      ∀ tag enter attrs, q.reference tag enter attrs = ((R tag).1, (R tag).2.1, if enter then (R tag).2.2 ++ attrs else attrs) := by
  refine ⟨_, resolve_resolvesIn hu hlen h hp, ?_⟩
  intro tag enter attrs
  unfold Parser.reference resolve refTarget
  rw [hq]
  cases p.prePass.linkDefinition tag with
  | some d => rfl
  | none =>
    simp only
    cases p.prePass.headingIdByTag tag <;> cases enter <;> rfl

/-- The destination `url` of a link or image with this type is right. -/
def ResolvedIn (defs : List (Bytes × Bytes × Attr.Attributes)) (hs : List HeadingInfo) (url : Bytes) : SpanLinkType → Prop
  | .inline => True
  | .reference => (∃ label a, lastDefinition defs label = some (url, a)) ∨
      ∃ h ∈ hs, lastDefinition defs (headingText h.content) = none ∧ url = b! "#" ++ h.id
  | .unresolved => lastDefinition defs url = none ∧ ∀ h ∈ hs, headingText h.content ≠ url

/-- **C38** for the events: every resolved reference has the url of the last definition with some label, or the
id of a heading whose text is no label; for every unresolved reference there is neither a definition with its
destination as label nor a heading with this text. (Which label: see C48.) -/
theorem C38_events (src : Bytes) (hu : Utf8 src) (hlen : src.length ≤ 4294967296) (es : List Event) (h : events src = .ok es) :
    ∀ c, (Event.end c ∈ es ∨ ∃ a, Event.start c a ∈ es) →
      (∀ url t, c = .link url (.span t) → ResolvedIn (definitionsOf es) (headingsOf es) url t) ∧
      ∀ url t, c = .image url t → ResolvedIn (definitionsOf es) (headingsOf es) url t := by
  obtain ⟨oes, h1, hes⟩ := events_ok h
  have h1' := h1
  unfold offsetEvents at h1
  obtain ⟨p, h2, h1⟩ := bind_ok h1
  obtain ⟨-, k1, k2, k3⟩ := outline_ok hu hlen h h2
  obtain ⟨ip', h3, h4, h5⟩ := new_ok h2
  obtain ⟨-, -, -, k4⟩ := prePass_ok hu h3 h4
  have hres : ∀ url t, ResolvedAs p.prePass url t → ResolvedIn (definitionsOf es) (headingsOf es) url t := by
    intro url t hr
    cases t with
    | inline => trivial
    | reference =>
      rcases hr with ⟨l, d, h6, rfl⟩ | ⟨tag, id, h6, h7, rfl⟩
      · exact Or.inl ⟨l, d.2, by rw [linkDefinition_last k3, h6]⟩
      · rcases byTag k4 tag with ⟨h8, -⟩ | ⟨h, hm, h8, h9⟩
        · rw [h8] at h7; cases h7
        · rw [h9] at h7; cases h7
          obtain ⟨i, hi, hi1, hi2⟩ := heading_of_info k1 k2 hm
          exact Or.inr ⟨i, hi, by rw [linkDefinition_last k3, hi1, h8, h6], by rw [hi2]⟩
    | unresolved =>
      obtain ⟨h6, h7⟩ := hr
      refine ⟨by rw [linkDefinition_last k3, h6], ?_⟩
      rcases byTag k4 url with ⟨-, h8⟩ | ⟨h, hm, h8, h9⟩
      · intro i hi hc
        have : headingText i.content ∈ p.prePass.headings.map (·.text) := by rw [k2]; exact List.mem_map.2 ⟨i, hi, rfl⟩
        obtain ⟨x, hx, hxt⟩ := List.mem_map.1 this
        exact h8 x hx (hxt.trans hc)
      · rw [h9] at h7; cases h7
  have hcon : ∀ c, isInline c = true ∧ Resolved p.prePass c ∨ isInline c = false →
      (∀ url t, c = .link url (.span t) → ResolvedIn (definitionsOf es) (headingsOf es) url t) ∧
      ∀ url t, c = .image url t → ResolvedIn (definitionsOf es) (headingsOf es) url t := by
    intro c hc
    refine ⟨?_, ?_⟩
    · rintro url t rfl
      rcases hc with ⟨-, hc⟩ | hc
      · exact hres _ _ hc
      · simp [isInline] at hc
    · rintro url t rfl
      rcases hc with ⟨-, hc⟩ | hc
      · exact hres _ _ hc
      · simp [isInline] at hc
  intro c hc
  apply hcon
  have hall := (collect_ok _ h1).2
  rw [hes] at hc
  rcases hc with hc | ⟨a, hc⟩
  all_goals
    obtain ⟨e, he, hee⟩ := List.mem_map.1 hc
    have := hall e he
    rw [hee] at this
    exact this

example : events (b! "[a]: u1\n[a]: u2\n\n# H\n\n[a][] [H][] [z][]\n") = .ok [
    .start .document [], .start (.linkDefinition (b! "a")) [], .str (b! "u1"), .end (.linkDefinition (b! "a")),
    .start (.linkDefinition (b! "a")) [], .str (b! "u2"), .end (.linkDefinition (b! "a")), .blankline,
    .start (.section (b! "H")) [], .start (.heading 1 true (b! "H")) [], .str (b! "H"), .end (.heading 1 true (b! "H")), .blankline,
    .start .paragraph [],
    .start (.link (b! "u2") (.span .reference)) [], .str (b! "a"), .end (.link (b! "u2") (.span .reference)), .str (b! " "),
    .start (.link (b! "#H") (.span .reference)) [], .str (b! "H"), .end (.link (b! "#H") (.span .reference)), .str (b! " "),
    .start (.link (b! "z") (.span .unresolved)) [], .str (b! "z"), .end (.link (b! "z") (.span .unresolved)),
    .end .paragraph, .end (.section (b! "H")), .end .document] := by decide +kernel

/-- Destinations and attributes of the links among the events. -/
def linkAttrs (es : List Event) : List (Bytes × Attr.Attributes) :=
  es.filterMap (fun e => match e with | .start (.link u _) a => some (u, a) | _ => none)

/-- **C38, finding.** The attributes before a link definition are also given to the definitions that directly follow it. -/
theorem C38_attributes_leak : (do
    let es ← events (b! "{.x}\n[a]: u1\n[b]: u2\n\n[b][]\n")
    pure (linkAttrs es)) =
    .ok [(b! "u2", [(.cls, b! "x")])] := by decide +kernel

end Jotdown
