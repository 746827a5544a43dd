import Verif.Proofs.PreOk
import Verif.Spec.Place
import Verif.Spec.Spelled
/-! # The events of the parser: containers and inline events -/
namespace Jotdown
open Jotdown

/-! ## Public containers -/

/-- The public container for a block container. -/
def pubC (pre : PrePass) : Block.Container → Container
  | .document => .document
  | .blockquote => .blockquote
  | .div cls => .div cls
  | .footnote l => .footnote l
  | .list ty tight =>
    match listContainer ty tight with
    | .ok c => c
    | .error _ => .descriptionList
  | .listItem (.task checked) => .taskListItem checked
  | .listItem .description => .descriptionDetails
  | .listItem .list => .listItem
  | .table => .table
  | .tableRow head => .tableRow head
  | .section pos => .section ((pre.headingIdByLocation pos).getD [])

/-- The public container for a leaf in a row of a table that is a head row or not. -/
def pubL (pre : PrePass) (head : Bool) : Block.Leaf → Container
  | .paragraph => .paragraph
  | .heading level hs pos => .heading level hs ((pre.headingIdByLocation pos).getD [])
  | .descriptionTerm => .descriptionTerm
  | .codeBlock language =>
    match language with
    | 61 :: format => .rawBlock format
    | _ => .codeBlock language
  | .tableCell a => .tableCell a head
  | .caption => .caption
  | .linkDefinition label => .linkDefinition label

/-- The destination of a reference. -/
def refTarget (pre : PrePass) (tag : Bytes) : Bytes × SpanLinkType :=
  match pre.linkDefinition tag with
  | some (url, _) => (url, .reference)
  | none =>
    match pre.headingIdByTag tag with
    | some id => (b! "#" ++ id, .reference)
    | none => (tag, .unresolved)

/-- The public container for an inline container. -/
def pubI (pre : PrePass) (cow : List Bytes) : Inline.Container → Container
  | .span => .span
  | .verbatim => .verbatim
  | .inlineMath => .math false
  | .displayMath => .math true
  | .rawFormat f => .rawInline f
  | .subscript => .subscript
  | .superscript => .superscript
  | .insert => .insert
  | .delete => .delete
  | .emphasis => .emphasis
  | .strong => .strong
  | .mark => .mark
  | .inlineLink i => .link (cow[i]?.getD []) (.span .inline)
  | .inlineImage i => .image (cow[i]?.getD []) .inline
  | .referenceLink i => .link (refTarget pre (cow[i]?.getD [])).1 (.span (refTarget pre (cow[i]?.getD [])).2)
  | .referenceImage i => .image (refTarget pre (cow[i]?.getD [])).1 (refTarget pre (cow[i]?.getD [])).2
  | .autolink url => .link url (if url.contains (c! '@') then .email else .autoLink)

/-- What references mean. -/
def resolve (pre : PrePass) : Resolver := fun tag => ((refTarget pre tag).1, (refTarget pre tag).2, ((pre.linkDefinition tag).map (·.2)).getD [])

/-- The attributes from the definition of a reference. -/
def defAttrs (pre : PrePass) (cow : List Bytes) : Inline.Container → Attr.Attributes
  | .referenceLink i | .referenceImage i => (resolve pre (cow[i]?.getD [])).2.2
  | _ => []

/-- The public element for an open inline container. -/
def pubO (pre : PrePass) (cow : List Bytes) (k : Inline.Open) : Opened := ⟨pubI pre cow k.c, defAttrs pre cow k.c ++ k.own, k.o, k.seen⟩

theorem pubO_add (pre : PrePass) (cow : List Bytes) (ist : List Inline.Open) (t : Bytes) :
    (Inline.addText ist t).map (pubO pre cow) = moreText (ist.map (pubO pre cow)) t := by
  simp [Inline.addText, moreText, pubO, Function.comp_def]

theorem addText_cs (ist : List Inline.Open) (t : Bytes) : (Inline.addText ist t).map (·.c) = ist.map (·.c) := by
  simp [Inline.addText, Function.comp_def]

theorem refTarget_ty (pre : PrePass) (tag : Bytes) : (refTarget pre tag).2 ≠ .inline := by
  unfold refTarget
  split
  · simp
  · split <;> simp

theorem linkEnd_ref {src : Bytes} {pre : PrePass} {own : Attr.Attributes} {w b u : Bytes} (h : Notation.Label src w b u) :
    LinkEnd src (resolve pre) (refTarget pre u).1 ((resolve pre u).2.2 ++ own) own w b (refTarget pre u).2 := by
  have h1 := refTarget_ty pre u
  cases ht : (refTarget pre u).2 with
  | inline => exact absurd ht h1
  | reference => exact ⟨u, h, rfl, ht, rfl⟩
  | unresolved => exact ⟨u, h, rfl, ht, rfl⟩

theorem ends_closes {N : Inline.Notes} {pre : PrePass} {k : Inline.Open} {x : Span} (h : Inline.Ends N k.c k.o x k.own k.seen) :
    Closes N.src (resolve pre) (pubO pre N.cow k) x := by
  obtain ⟨b, s, h1, h2, h3⟩ := h
  refine ⟨b, s, k.own, h1, h3, ?_⟩
  obtain ⟨c, o, own, seen⟩ := k
  simp only [pubO] at h2 ⊢
  cases c with
  | referenceLink i =>
    obtain ⟨g1, u, g2, g3⟩ := h2
    refine ⟨g1, ?_⟩
    simp only [defAttrs, g2, Option.getD_some]
    exact linkEnd_ref g3
  | referenceImage i =>
    obtain ⟨g1, u, g2, g3⟩ := h2
    refine ⟨g1, ?_⟩
    simp only [defAttrs, g2, Option.getD_some]
    exact linkEnd_ref g3
  | inlineLink i =>
    obtain ⟨g1, u, g2, g3⟩ := h2
    refine ⟨g1, rfl, ?_⟩
    simp only [g2, Option.getD_some]
    exact g3
  | inlineImage i =>
    obtain ⟨g1, u, g2, g3⟩ := h2
    refine ⟨g1, rfl, ?_⟩
    simp only [g2, Option.getD_some]
    exact g3
  | autolink url =>
    obtain ⟨g1, g2, g3, g4⟩ := h2
    simp only [pubI]
    by_cases hc : url.contains (c! '@') = true
    · rw [if_pos hc]
      exact ⟨rfl, g1, g2, g3, g4, by rw [g3] at hc; simp only [List.contains_iff_mem] at hc; exact hc⟩
    · rw [if_neg hc]
      exact ⟨rfl, g1, g2, g3, g4, by rw [g3] at hc; simp only [List.contains_iff_mem] at hc; exact hc⟩
  | _ => exact ⟨rfl, h2⟩

theorem pubI_inline (pre : PrePass) (cow : List Bytes) (x : Inline.Container) : isInline (pubI pre cow x) = true := by
  cases x <;> rfl

theorem pubI_holds (pre : PrePass) (cow : List Bytes) (x : Inline.Container) : holdsInl (pubI pre cow x) = true := by
  cases x <;> rfl

theorem pubL_holds (pre : PrePass) (head : Bool) {l : Block.Leaf} (h : l.isFed = true) : holdsInl (pubL pre head l) = true := by
  cases l <;> first | rfl | cases h

theorem pubL_raw (pre : PrePass) (head : Bool) {l : Block.Leaf} (h : l.isFed = false) : holdsRaw (pubL pre head l) = true := by
  cases l with
  | codeBlock lang => unfold pubL; simp only; split <;> rfl
  | linkDefinition => rfl
  | _ => cases h

theorem mayHold_inline {p c : Container} (hp : holdsInl p = true) (hc : isInline c = true) : mayHold p c = true := by
  cases p <;> cases hp <;> cases c <;> first | rfl | cases hc

theorem listContainer_ok {ty : Block.ListType} {tight : Bool} (h : Block.TyOk ty) : ∃ c, listContainer ty tight = .ok c ∧
    ((∃ k, c = .list k tight) ∨ c = .descriptionList) := by
  unfold listContainer
  cases ty with
  | description => exact ⟨_, rfl, .inr rfl⟩
  | ordered n s => exact ⟨_, rfl, .inl ⟨_, rfl⟩⟩
  | unordered b => rcases h with rfl | rfl | rfl <;> exact ⟨_, rfl, .inl ⟨_, rfl⟩⟩
  | task b => rcases h with rfl | rfl | rfl <;> exact ⟨_, rfl, .inl ⟨_, rfl⟩⟩

theorem pubC_list {pre : PrePass} {ty : Block.ListType} {tight : Bool} : (∃ k, pubC pre (.list ty tight) = .list k tight) ∨ pubC pre (.list ty tight) = .descriptionList := by
  unfold pubC
  simp only
  unfold listContainer
  cases ty with
  | description => exact .inr rfl
  | ordered n s => exact .inl ⟨_, rfl⟩
  | unordered b => simp only; cases Bullet.ofByte b <;> simp
  | task b => simp only; cases Bullet.ofByte b <;> simp

theorem mayHold_cont {pre : PrePass} {c d : Block.Container} (h : Block.mayContain c (.container d) = true) : mayHold (pubC pre c) (pubC pre d) = true := by
  cases c with
  | list ty tight =>
    cases d with
    | listItem k => rcases pubC_list (pre := pre) (ty := ty) (tight := tight) with ⟨k', h1⟩ | h1 <;> rw [h1] <;> cases k <;> rfl
    | _ => cases h
  | listItem k =>
    cases d with
    | list ty tight =>
      rcases pubC_list (pre := pre) (ty := ty) (tight := tight) with ⟨k', h1⟩ | h1 <;> rw [h1] <;> cases k <;> rfl
    | _ => first | (cases h; done) | (cases k <;> rfl)
  | _ =>
    cases d with
    | list ty tight =>
      first
        | (cases h; done)
        | rcases pubC_list (pre := pre) (ty := ty) (tight := tight) with ⟨k', h1⟩ | h1 <;> rw [h1] <;> rfl
    | listItem k => first | (cases h; done) | (cases k <;> rfl)
    | _ => first | rfl | cases h

theorem pubL_code (pre : PrePass) (head : Bool) (lang : Bytes) : (∃ f, pubL pre head (.codeBlock lang) = .rawBlock f) ∨ pubL pre head (.codeBlock lang) = .codeBlock lang := by
  unfold pubL
  simp only
  split
  · exact .inl ⟨_, rfl⟩
  · exact .inr rfl

theorem mayHold_leaf {pre : PrePass} {head : Bool} {c : Block.Container} {l : Block.Leaf} (h : Block.mayContain c (.leaf l) = true)
    (hh : ∀ h, c = .tableRow h → head = h) : mayHold (pubC pre c) (pubL pre head l) = true := by
  cases c with
  | list ty tight =>
    cases l with
    | descriptionTerm => rcases pubC_list (pre := pre) (ty := ty) (tight := tight) with ⟨k', h1⟩ | h1 <;> rw [h1] <;> rfl
    | _ => cases h
  | tableRow hd =>
    cases l with
    | tableCell a => have := hh hd rfl; subst this; simp [pubC, pubL, mayHold]
    | _ => cases h
  | listItem k =>
    cases l with
    | codeBlock lang => rcases pubL_code pre head lang with ⟨f, h1⟩ | h1 <;> rw [h1] <;> cases k <;> rfl
    | _ => first | (cases h; done) | (cases k <;> rfl)
  | _ =>
    cases l with
    | codeBlock lang =>
      first
        | (cases h; done)
        | rcases pubL_code pre head lang with ⟨f, h1⟩ | h1 <;> rw [h1] <;> rfl
    | _ => first | rfl | cases h

/-- The parser after the start of a container. -/
def Parser.atRow (p : Parser) (c : Block.Container) (enter : Bool) : Parser :=
  match c with
  | .tableRow head => if enter then { p with tableHeadRow := head } else p
  | _ => p

theorem blockContainer_sat (p : Parser) {c : Block.Container} (enter : Bool) (h : Block.Fine c) :
    p.blockContainer c enter = .ok (p.atRow c enter, pubC p.prePass c) := by
  cases c with
  | list ty tight =>
    obtain ⟨c, h1, -⟩ := listContainer_ok (tight := tight) h
    unfold Parser.blockContainer pubC
    simp only
    rw [h1]
    rfl
  | listItem k => cases k <;> rfl
  | _ => rfl

theorem leafContainer_sat (p : Parser) {src : Bytes} (h : Inline.Rest src p.inlineParser) (l : Block.Leaf) (enter : Bool) :
    ∃ ip, Inline.Idle src ip ∧ p.leafContainer l enter =
      .ok ({ p with inlineParser := ip, verbatim := if l.isFed then p.verbatim else enter }, pubL p.prePass p.tableHeadRow l) := by
  obtain ⟨ip, h1, h2⟩ := h.reset.exists_ok
  refine ⟨ip, h2, ?_⟩
  unfold Parser.leafContainer
  rw [h1]
  simp only [Bind.bind, Except.bind]
  cases l <;> rfl

/-! ## Inline events -/

theorem reference_eq (p : Parser) (tag : Bytes) (enter : Bool) (attrs : Attr.Attributes) (hd : DefsOk p.prePass.linkDefinitions) (ha : Attr.KeysOk attrs) :
    ∃ a', p.reference tag enter attrs = ((refTarget p.prePass tag).1, (refTarget p.prePass tag).2, a') ∧ Attr.KeysOk a' ∧ (enter = false → a' = attrs) ∧
      (enter = true → a' = (resolve p.prePass tag).2.2 ++ attrs) := by
  unfold Parser.reference resolve refTarget
  cases h : p.prePass.linkDefinition tag with
  | some d =>
    obtain ⟨u, ad⟩ := d
    simp only
    have had : Attr.KeysOk ad := by
      unfold PrePass.linkDefinition at h
      rw [Option.map_eq_some_iff] at h
      obtain ⟨d, h1, h2⟩ := h
      have := hd d (List.mem_of_find?_eq_some h1)
      rw [h2] at this
      exact this
    cases enter with
    | true => exact ⟨_, rfl, KeysOk.append had ha, by simp, fun _ => rfl⟩
    | false => exact ⟨_, rfl, ha, fun _ => rfl, by simp⟩
  | none =>
    simp only
    cases p.prePass.headingIdByTag tag with
    | some id => exact ⟨_, rfl, ha, fun _ => rfl, fun _ => rfl⟩
    | none => exact ⟨_, rfl, ha, fun _ => rfl, fun _ => rfl⟩

theorem idx_get {α : Type} [Inhabited α] {l : List α} {i : Nat} (h : i < l.length) (d : α) : idx l i = .ok (l[i]?.getD d) := by
  unfold idx
  rw [List.getElem?_eq_getElem h]
  rfl

theorem inlineContainer_sat (p : Parser) {x : Inline.Container} (enter : Bool) {attrs : Attr.Attributes} (hx : Inline.StoreOk p.inlineParser.storeCowstrs.length x)
    (hd : DefsOk p.prePass.linkDefinitions) (ha : Attr.KeysOk attrs) :
    ∃ a', p.inlineContainer x enter attrs = .ok (pubI p.prePass p.inlineParser.storeCowstrs x, a') ∧ Attr.KeysOk a' ∧ (enter = false → a' = attrs) ∧
      (enter = true → a' = defAttrs p.prePass p.inlineParser.storeCowstrs x ++ attrs) := by
  have href : ∀ (t : Bytes), ∃ a', p.reference t enter attrs = ((refTarget p.prePass t).1, (refTarget p.prePass t).2, a') ∧ Attr.KeysOk a' ∧ (enter = false → a' = attrs) ∧
      (enter = true → a' = (resolve p.prePass t).2.2 ++ attrs) :=
    fun t => reference_eq p t enter attrs hd ha
  cases x with
  | inlineLink i =>
    refine ⟨attrs, ?_, ha, fun _ => rfl, fun _ => rfl⟩
    unfold Parser.inlineContainer
    simp only
    rw [idx_get hx []]
    rfl
  | inlineImage i =>
    refine ⟨attrs, ?_, ha, fun _ => rfl, fun _ => rfl⟩
    unfold Parser.inlineContainer
    simp only
    rw [idx_get hx []]
    rfl
  | referenceLink i =>
    obtain ⟨a', h1, h2, h3⟩ := href (p.inlineParser.storeCowstrs[i]?.getD [])
    refine ⟨a', ?_, h2, h3⟩
    unfold Parser.inlineContainer
    simp only
    rw [idx_get hx []]
    simp only [Bind.bind, Except.bind]
    rw [h1]
    rfl
  | referenceImage i =>
    obtain ⟨a', h1, h2, h3⟩ := href (p.inlineParser.storeCowstrs[i]?.getD [])
    refine ⟨a', ?_, h2, h3⟩
    unfold Parser.inlineContainer
    simp only
    rw [idx_get hx []]
    simp only [Bind.bind, Except.bind]
    rw [h1]
    rfl
  | _ => exact ⟨attrs, rfl, ha, fun _ => rfl, fun _ => rfl⟩

/-- What is known about an event and its range. -/
structure Good (src : Bytes) (e : Event) (sp : Span) : Prop where
  span : Block.SpanOk src sp
  ev : match e with
    | .start c a => Attr.KeysOk a ∧ (∀ cls, c = .div cls → cls.all Attr.isName = true)
    | .str s => s = Block.sliceOf src sp ∧ sp.start < sp.stop
    | .symbol s => ∀ b ∈ s, Inline.isSymbolChar b = true
    | .thematicBreak a => Attr.KeysOk a
    | .attributes a => Attr.KeysOk a
    | _ => True

/-- Not the start or end of a caption. -/
def NoCaption : Event → Prop
  | .start c _ => c ≠ .caption
  | .end c => c ≠ .caption
  | _ => True

/-- An inline event was emitted. -/
structure InlOut (src : Bytes) (pre : PrePass) (c : Inline.Cx) (ist : List Inline.Open) (cow : List Bytes) (e : Event) (sp : Span) (ip : Inline.IP) : Prop where
  good : Good src e sp
  nocap : NoCaption e
  lo : c.lo ≤ sp.start
  ex : ∃ c' : Inline.Cx, ∃ ist', c'.src = c.src ∧ c'.H = c.H ∧ c'.cpl = c.cpl ∧ c'.more = c.more ∧ c'.K < c.K ∧ c'.lo = sp.stop ∧ Inline.Emit c' ist' ip ∧
    SpellStep src (resolve pre) true (ist.map (pubO pre cow)) (e, sp) (ist'.map (pubO pre ip.storeCowstrs)) ∧
    ∀ L R, holdsInl L = true → place1 ((ist.map (·.c)).map (pubI pre cow) ++ L :: R) e = some ((ist'.map (·.c)).map (pubI pre ip.storeCowstrs) ++ L :: R)

theorem place1_start {pre : PrePass} {cow cow' : List Bytes} {ist : List Inline.Container} (hm : ist.map (pubI pre cow) = ist.map (pubI pre cow')) (x : Inline.Container) (a : Attr.Attributes) (L : Container) (R : List Container) (hL : holdsInl L = true) :
    place1 (ist.map (pubI pre cow) ++ L :: R) (.start (pubI pre cow' x) a) = some ((x :: ist).map (pubI pre cow') ++ L :: R) := by
  rw [hm]
  cases ist with
  | nil =>
    simp only [List.map_nil, List.nil_append, place1, mayHold_inline hL (pubI_inline pre cow' x), if_true]
    rfl
  | cons y ist =>
    simp only [List.map_cons, List.cons_append, place1, mayHold_inline (pubI_holds pre cow' y) (pubI_inline pre cow' x), if_true]

theorem place1_end {pre : PrePass} {cow cow' : List Bytes} {ist : List Inline.Container} (x : Inline.Container) (hm : (x :: ist).map (pubI pre cow) = (x :: ist).map (pubI pre cow')) (L : Container) (R : List Container) :
    place1 ((x :: ist).map (pubI pre cow) ++ L :: R) (.end (pubI pre cow' x)) = some (ist.map (pubI pre cow') ++ L :: R) := by
  rw [hm]
  cases ist with
  | nil => simp [place1]
  | cons y ist => simp [place1]

theorem place1_inl {pre : PrePass} {cow cow' : List Bytes} {ist : List Inline.Container} (hm : ist.map (pubI pre cow) = ist.map (pubI pre cow')) (e : Event) (L : Container) (R : List Container) (hL : holdsInl L = true)
    (he : ∀ p, holdsInl p = true → mayOccur p e = true) (h1 : ∀ c a, e ≠ .start c a) (h2 : ∀ c, e ≠ .end c) :
    place1 (ist.map (pubI pre cow) ++ L :: R) e = some (ist.map (pubI pre cow') ++ L :: R) := by
  rw [hm]
  have : ∀ p st, holdsInl p = true → place1 (p :: st) e = some (p :: st) := by
    intro p st hp
    have := he p hp
    cases e
    case start c a => exact absurd rfl (h1 c a)
    case «end» c => exact absurd rfl (h2 c)
    all_goals simp only [place1, this, if_true]
  cases ist with
  | nil => exact this L R hL
  | cons y ist => exact this _ _ (pubI_holds pre cow' y)

theorem inlineEvent_start (p : Parser) {e : Inline.Event} {x : Inline.Container} {attrs : Attr.Attributes} (he : e.kind = .enter x) (hx : Inline.StoreOk p.inlineParser.storeCowstrs.length x)
    (hd : DefsOk p.prePass.linkDefinitions) (ha : Attr.KeysOk attrs) :
    p.inlineEvent e attrs = .ok (.start (pubI p.prePass p.inlineParser.storeCowstrs x) (defAttrs p.prePass p.inlineParser.storeCowstrs x ++ attrs), []) ∧
      Attr.KeysOk (defAttrs p.prePass p.inlineParser.storeCowstrs x ++ attrs) := by
  obtain ⟨a', h1, h2, -, h3⟩ := inlineContainer_sat p true hx hd ha
  have := h3 rfl
  subst this
  refine ⟨?_, h2⟩
  unfold Parser.inlineEvent
  rw [he]
  simp only [h1, Bind.bind, Except.bind]
  rfl

theorem pubI_ne (pre : PrePass) (cow : List Bytes) (x : Inline.Container) : pubI pre cow x ≠ .caption ∧ ∀ cls, pubI pre cow x ≠ .div cls := by
  cases x <;> simp [pubI]

theorem inline_sat {src : Bytes} {c : Inline.Cx} (hc : c.Ok) (hsrc : c.src = src) {p : Parser} (hp : p.src = src) {ist : List Inline.Open} (h : Inline.Ready c ist p.inlineParser)
    (hd : DefsOk p.prePass.linkDefinitions) :
    Sat Never p.inline (fun r => ∃ ip, r.1 = { p with inlineParser := ip } ∧ match r.2 with
      | some (e, sp) => InlOut src p.prePass c ist p.inlineParser.storeCowstrs e sp ip
      | none => ist = [] ∧ (Inline.Starved c ip ∨ Inline.Pending c ip ∨ Inline.Fin c ip)) := by
  subst hsrc
  unfold Parser.inline
  refine (Inline.nextEvent_ok hc h).bind ?_
  intro ⟨ip, next⟩ hn
  simp only
  have hstore := hn.1
  have hn := hn.2
  simp only at hn hstore
  have hmap : (ist.map (·.c)).map (pubI p.prePass p.inlineParser.storeCowstrs) = (ist.map (·.c)).map (pubI p.prePass ip.storeCowstrs) := by
    cases ist with
    | nil => rfl
    | cons x ist => rw [(hstore (by simp)).1]
  have hmapO : ist.map (pubO p.prePass p.inlineParser.storeCowstrs) = ist.map (pubO p.prePass ip.storeCowstrs) := by
    cases ist with
    | nil => rfl
    | cons x ist => rw [(hstore (by simp)).1]
  cases next with
  | none => exact Sat.pure ⟨ip, rfl, hn⟩
  | some e =>
    obtain ⟨hK, hn⟩ := hn
    simp only
    have hnx := hn.next
    have hko := hn.kindOk
    split
    · rename_i w i hk
      rw [hk] at hnx hko
      simp only [Inline.KindOk] at hnx hko
      obtain ⟨own, hown, hnx⟩ := hnx
      refine (Inline.nextEvent_after (hc.bound _) hnx).bind ?_
      intro ⟨ip2, e2⟩ ht
      obtain ⟨e', h1, h2, h3, h4, h5⟩ := ht.ev
      have hcow := ht.cow
      have hat := ht.attrs
      simp only at h1 hcow hat h4 h5 ⊢
      subst h1
      simp only
      rw [hat, idx_get hko [], hown, Option.getD_some]
      simp only [Bind.bind, Except.bind]
      have hga : Inline.GoodAttrs own := hnx.base.store _ (List.mem_of_getElem? hown)
      have hmap2 : (ist.map (·.c)).map (pubI p.prePass p.inlineParser.storeCowstrs) = (ist.map (·.c)).map (pubI p.prePass ip2.storeCowstrs) := by rw [hmap, hcow]
      have hmapO2 : ist.map (pubO p.prePass p.inlineParser.storeCowstrs) = ist.map (pubO p.prePass ip2.storeCowstrs) := by rw [hmapO, hcow]
      rcases h5 with ⟨hk', hwr, h5⟩ | ⟨x, hk', h5⟩
      · unfold Parser.inlineEvent
        rw [hk']
        simp only
        have hne : (!own.isEmpty) = true := by
          cases hx : own with
          | nil => exact absurd hx hga.1
          | cons a b => rfl
        simp only [hne, dassert, if_true, Bind.bind, Except.bind, Pure.pure, Except.pure, List.isEmpty_nil]
        refine Sat.ok ⟨ip2, rfl, ⟨h2, hga.2⟩, trivial, h3, (c.bound (c.K - 1)).past e', ist, rfl, rfl, rfl, rfl, ?_, rfl, h5, ⟨hmapO2.symm, fun _ => ⟨hga.1, hwr⟩⟩, ?_⟩
        · simp only [Inline.Cx.past, Inline.Cx.bound]; omega
        · intro L R hL
          refine place1_inl hmap2 _ L R hL (fun q hq => ?_) (by simp) (by simp)
          simp [mayOccur, hq]
      · obtain ⟨g1, g2⟩ := inlineEvent_start { p with inlineParser := ip2 } (e := e') (x := x) (attrs := own) hk' (by rw [hk'] at h4; exact h4) hd hga.2
        rw [g1]
        simp only [List.isEmpty_nil, dassert, if_true, Pure.pure, Except.pure]
        refine Sat.ok ⟨ip2, rfl, ⟨h2, g2, fun cls hcl => absurd hcl ((pubI_ne _ _ _).2 cls)⟩, (pubI_ne _ _ _).1, h3, (c.bound (c.K - 1)).past e', ⟨x, e'.span, own, []⟩ :: ist, rfl, rfl, rfl, rfl, ?_, rfl, h5, ?_, ?_⟩
        · simp only [Inline.Cx.past, Inline.Cx.bound]; omega
        · rw [hmapO2]
          simp only [SpellStep, pubI_inline, if_true]
          rfl
        · intro L R hL
          exact place1_start hmap2 x _ L R hL
    · rename_i hk
      have hsp := hn.span
      split at hnx
      · rename_i x hx
        rw [hx] at hko
        obtain ⟨g1, g2⟩ := inlineEvent_start { p with inlineParser := ip } (e := e) (x := x) (attrs := []) hx hko hd KeysOk.nil
        rw [g1]
        simp only [List.isEmpty_nil, dassert, if_true, Bind.bind, Except.bind, Pure.pure, Except.pure]
        refine Sat.ok ⟨ip, rfl, ⟨hsp, g2, fun cls hcl => absurd hcl ((pubI_ne _ _ _).2 cls)⟩, (pubI_ne _ _ _).1, hnx.1, c.past e, ⟨x, e.span, [], []⟩ :: ist, rfl, rfl, rfl, rfl, ?_, rfl, hnx.2, ?_, ?_⟩
        · simp only [Inline.Cx.past]; omega
        · rw [hmapO]
          simp only [SpellStep, pubI_inline, if_true]
          rfl
        · intro L R hL
          exact place1_start hmap x _ L R hL
      · rename_i x hx
        rw [hx] at hko
        obtain ⟨hlo, k, st', hst, hkc, hends, hem⟩ := hnx
        subst hst hkc
        obtain ⟨a', g1, g2, g3, -⟩ := inlineContainer_sat { p with inlineParser := ip } (x := k.c) (attrs := []) false hko hd KeysOk.nil
        have := g3 rfl
        subst this
        unfold Parser.inlineEvent
        rw [hx]
        simp only [g1, List.isEmpty_nil, dassert, if_true, Bind.bind, Except.bind, Pure.pure, Except.pure]
        refine Sat.ok ⟨ip, rfl, ⟨hsp, trivial⟩, (pubI_ne _ _ _).1, hlo, c.past e, st', rfl, rfl, rfl, rfl, ?_, rfl, hem, ?_, ?_⟩
        · simp only [Inline.Cx.past]; omega
        · rw [hmapO]
          simp only [SpellStep, pubI_inline, if_true]
          exact ⟨pubO p.prePass ip.storeCowstrs k, rfl, rfl, ends_closes (N := Inline.nts c ip) hends⟩
        · intro L R hL
          exact place1_end k.c hmap L R
      · rename_i hx
        unfold Parser.inlineEvent
        rw [hx]
        simp only [hp, hsp.slice, List.isEmpty_nil, dassert, if_true, Bind.bind, Except.bind, Pure.pure, Except.pure]
        refine Sat.ok ⟨ip, rfl, ⟨hsp, rfl, hnx.2.1⟩, trivial, hnx.1, c.past e, Inline.addText ist (Block.sliceOf c.src e.span), rfl, rfl, rfl, rfl, ?_, rfl, hnx.2.2, ⟨by rw [pubO_add, hmapO]; rfl, rfl⟩, ?_⟩
        · simp only [Inline.Cx.past]; omega
        · intro L R hL
          rw [addText_cs]
          refine place1_inl hmap _ L R hL (fun q hq => ?_) (by simp) (by simp)
          simp [mayOccur, hq]
      · rename_i a hx
        unfold Parser.inlineEvent
        rw [hx]
        simp only [List.isEmpty_nil, dassert, if_true, Bind.bind, Except.bind, Pure.pure, Except.pure]
        rw [hx] at hko
        refine Sat.ok ⟨ip, rfl, ⟨hsp, ?_⟩, ?_, hnx.1, c.past e, Inline.addText ist (Inline.evText c.src e), rfl, rfl, rfl, rfl, ?_, rfl, hnx.2, ?_, ?_⟩
        · cases a with
          | symbol s => exact hko
          | quote ty l => cases ty <;> cases l <;> trivial
          | _ => trivial
        · cases a with
          | quote ty l => cases ty <;> cases l <;> trivial
          | _ => trivial
        · simp only [Inline.Cx.past]; omega
        · have htext := hn.text
          rw [hx] at htext
          have hst : ∀ u, u = Inline.evText c.src e → (Inline.addText ist (Inline.evText c.src e)).map (pubO p.prePass ip.storeCowstrs) =
              moreText (ist.map (pubO p.prePass p.inlineParser.storeCowstrs)) u := by
            rintro u rfl
            rw [pubO_add, hmapO]
          have hev : shownText c.src (atomEvent a, e.span) = Inline.evText c.src e := by
            unfold Inline.evText
            rw [hx]
            cases a with
            | quote ty l => cases ty <;> cases l <;> rfl
            | _ => rfl
          cases a with
          | quote ty l => cases ty <;> cases l <;> exact ⟨hst _ hev, htext⟩
          | _ => exact ⟨hst _ hev, htext⟩
        · intro L R hL
          rw [addText_cs]
          refine place1_inl hmap _ L R hL (fun q hq => ?_) ?_ ?_
          · cases a with
            | quote ty l => cases ty <;> cases l <;> simp [mayOccur, atomEvent, hq]
            | _ => simp [mayOccur, atomEvent, hq]
          · intro c a'
            cases a with
            | quote ty l => cases ty <;> cases l <;> simp [atomEvent]
            | _ => simp [atomEvent]
          · intro c
            cases a with
            | quote ty l => cases ty <;> cases l <;> simp [atomEvent]
            | _ => simp [atomEvent]
      · rename_i w i hx
        exact absurd hx (hk w i)
      · exact hnx.elim

end Jotdown
