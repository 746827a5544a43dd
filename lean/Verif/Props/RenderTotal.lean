import Verif.Props.Layout
import Verif.Props.Html
import Verif.Props.Parser
import Verif.Props.Writer
/-! # Property C56: rendering a document never panics -/
namespace Jotdown.Html
open Jotdown

/-- A container without what only affects the text of the output. -/
def bareContainer : Container → Container
  | .rawBlock _ => .rawBlock []
  | .rawInline _ => .rawInline []
  | .div _ => .div []
  | c => c

/-- An event without what only affects the text of the output. -/
def bare : Event → Event
  | .start c _ => .start (bareContainer c) []
  | .end c => .end (bareContainer c)
  | .symbol _ => .symbol []
  | .thematicBreak _ => .thematicBreak []
  | e => e

def bareStash (m : List (Bytes × List Event)) : List (Bytes × List Event) := m.map (fun p => (p.1, p.2.map bare))

def bareNotes (f : Footnotes) : Footnotes := { f with open_ := bareStash f.open_, events := bareStash f.events }

/-- The renderer that has seen the same events without what only affects the text of the output. -/
def Bare (r r' : Renderer) : Prop := ∃ w, r' = { r with raw := w, footnotes := bareNotes r.footnotes }

theorem Bare.firstLine {r r' : Renderer} (h : Bare r r') (b : Bool) : Bare { r with firstLine := b } { r' with firstLine := b } := by
  obtain ⟨w, rfl⟩ := h
  exact ⟨w, rfl⟩

theorem Bare.img {r r' : Renderer} (h : Bare r r') : r'.imgAltText = r.imgAltText := by obtain ⟨w, rfl⟩ := h; rfl
theorem Bare.tight {r r' : Renderer} (h : Bare r r') : r'.listTightness = r.listTightness := by obtain ⟨w, rfl⟩ := h; rfl

theorem block_bare {r r' : Renderer} (h : Bare r r') (c : Int) : Bare (r.block c).1 (r'.block c).1 := by
  obtain ⟨w, rfl⟩ := h
  refine ⟨w, ?_⟩
  unfold Renderer.block
  rcases hi : r.indent with _ | i
  · simp only [hi]
  · simp only [hi]
    split <;> split <;> simp [hi]

theorem isBlock_bare (c : Container) : isBlock (bareContainer c) = isBlock c := by cases c <;> rfl
theorem isBlockContainer_bare (c : Container) : isBlockContainer (bareContainer c) = isBlockContainer c := by cases c <;> rfl
theorem isImage_bare (c : Container) : isImage (bareContainer c) = isImage c := by cases c <;> rfl

theorem startBlock_bare {r r' : Renderer} (h : Bare r r') (c : Container) :
    Bare (r.startBlock c).1 (r'.startBlock (bareContainer c)).1 := by
  unfold Renderer.startBlock
  rw [isBlock_bare, isBlockContainer_bare]
  split
  · exact block_bare h _
  · exact h

theorem closeBlock_bare {r r' : Renderer} (h : Bare r r') (c : Container) :
    Bare (r.closeBlock c).1 (r'.closeBlock (bareContainer c)).1 := by
  unfold Renderer.closeBlock
  rw [isBlockContainer_bare]
  split
  · exact block_bare h _
  · exact h

theorem openTag_bare {r r' : Renderer} (h : Bare r r') (c : Container) :
    BothOk (fun x y => Bare x.1 y.1 ∧ (x.2.isSome = y.2.isSome)) (r.openTag c) (r'.openTag (bareContainer c)) := by
  obtain ⟨w, rfl⟩ := h
  cases c with
  | tableCell a hd => cases hd <;> exact ⟨⟨w, rfl⟩, rfl⟩
  | footnote l => exact rfl
  | rawBlock f => exact ⟨⟨_, rfl⟩, rfl⟩
  | rawInline f => exact ⟨⟨_, rfl⟩, rfl⟩
  | paragraph => exact ⟨⟨w, rfl⟩, rfl⟩
  | image u t => exact ⟨⟨w, rfl⟩, rfl⟩
  | _ => exact ⟨⟨w, rfl⟩, rfl⟩

theorem closeTag_bare {r r' : Renderer} (h : Bare r r') (c : Container) :
    BothOk (fun x y => Bare x.1 y.1 ∧ (x.2.isSome = y.2.isSome)) (r.closeTag c) (r'.closeTag (bareContainer c)) := by
  obtain ⟨w, rfl⟩ := h
  cases c with
  | tableCell a hd => cases hd <;> exact ⟨⟨w, rfl⟩, rfl⟩
  | footnote l => exact rfl
  | document => exact rfl
  | linkDefinition l => exact rfl
  | rawBlock f => exact ⟨⟨_, rfl⟩, rfl⟩
  | rawInline f => exact ⟨⟨_, rfl⟩, rfl⟩
  | paragraph =>
    simp only [Renderer.closeTag, bareContainer]
    split <;> exact ⟨⟨w, rfl⟩, rfl⟩
  | image u t =>
    simp only [Renderer.closeTag, bareContainer]
    cases csub r.imgAltText 1 with
    | error e => exact rfl
    | ok n => exact ⟨⟨w, rfl⟩, rfl⟩
  | _ => exact ⟨⟨w, rfl⟩, rfl⟩

theorem closeStart_bare {r r' : Renderer} (h : Bare r r') (c : Container) :
    Bare (r.closeStart c).1 (r'.closeStart (bareContainer c)).1 := by
  cases c with
  | taskListItem b => exact block_bare h 0
  | _ => exact h

def BO (x y : Renderer × Out) : Prop := Bare x.1 y.1

theorem start_bare {r r' : Renderer} (h : Bare r r') (c : Container) (a a' : Attr.Attributes) :
    BothOk BO (r.start c a) (r'.start (bareContainer c) a') := by
  have hb := startBlock_bare h c
  unfold Renderer.start
  rw [hb.img, isImage_bare]
  refine Lex.ite_intro (P := fun x => BothOk BO x _) (fun hc => ?_) (fun hc => ?_)
  · rw [if_pos hc]; exact hb
  · rw [if_neg hc]
    have ht := openTag_bare hb c
    revert ht
    cases h1 : (r.startBlock c).1.openTag c <;> cases h2 : (r'.startBlock (bareContainer c)).1.openTag (bareContainer c) <;> intro ht
    · exact ht
    · exact ht.elim
    · exact ht.elim
    · rename_i x y
      obtain ⟨x1, x2⟩ := x
      obtain ⟨y1, y2⟩ := y
      obtain ⟨ht1, ht2⟩ := ht
      cases x2 <;> cases y2
      · exact ht1
      · cases ht2
      · cases ht2
      · exact (closeStart_bare ht1 c).firstLine _

theorem close_bare {r r' : Renderer} (h : Bare r r') (c : Container) :
    BothOk BO (r.close c) (r'.close (bareContainer c)) := by
  have hb := closeBlock_bare h c
  unfold Renderer.close
  rw [hb.img, isImage_bare]
  refine Lex.ite_intro (P := fun x => BothOk BO x _) (fun hc => ?_) (fun hc => ?_)
  · rw [if_pos hc]; exact hb
  · rw [if_neg hc]
    have ht := closeTag_bare hb c
    revert ht
    cases h1 : (r.closeBlock c).1.closeTag c <;> cases h2 : (r'.closeBlock (bareContainer c)).1.closeTag (bareContainer c) <;> intro ht
    · exact ht
    · exact ht.elim
    · exact ht.elim
    · rename_i x y
      obtain ⟨x1, x2⟩ := x
      obtain ⟨y1, y2⟩ := y
      obtain ⟨ht1, ht2⟩ := ht
      cases x2 <;> cases y2
      · exact ht1
      · cases ht2
      · cases ht2
      · exact ht1.firstLine _

theorem core_bare {r r' : Renderer} (h : Bare r r') (e : Event) : BothOk BO (r.core e) (r'.core (bare e)) := by
  have hb := block_bare h 0
  cases e with
  | start c a => exact start_bare h c a []
  | «end» c => exact close_bare h c
  | footnoteReference l =>
    obtain ⟨w, rfl⟩ := h
    refine ⟨w, ?_⟩
    simp only [Renderer.footnoteReference, Footnotes.reference, bareNotes]
    cases labelPos l r.footnotes.references <;> rfl
  | hardbreak => exact hb.firstLine _
  | thematicBreak a => exact hb.firstLine _
  | _ => exact h.firstLine _

theorem bareStash_filter (m : List (Bytes × List Event)) (k : Bytes) :
    (bareStash m).filter (fun p => p.1 != k) = bareStash (m.filter (fun p => p.1 != k)) := by
  unfold bareStash
  rw [List.filter_map]
  rfl

theorem bareStash_find (m : List (Bytes × List Event)) (k : Bytes) :
    ((bareStash m).find? (fun p => p.1 == k)).map (·.2) = ((m.find? (fun p => p.1 == k)).map (·.2)).map (List.map bare) := by
  induction m with
  | nil => rfl
  | cons p m ih =>
    have : bareStash (p :: m) = (p.1, p.2.map bare) :: bareStash m := rfl
    rw [this, List.find?_cons, List.find?_cons]
    cases p.1 == k
    · exact ih
    · rfl

theorem bareStash_insert (m : List (Bytes × List Event)) (k : Bytes) (v : List Event) :
    mapInsert (bareStash m) k (v.map bare) = bareStash (mapInsert m k v) := by
  unfold mapInsert
  rw [bareStash_filter]
  rfl

theorem next_bare (f : Footnotes) : (bareNotes f).next =
    f.next.map (fun x => ((x.1.1, x.1.2.map (List.map bare)), bareNotes x.2)) := by
  unfold Footnotes.next
  have h1 : (bareNotes f).references = f.references := rfl
  have h2 : (bareNotes f).number = f.number := rfl
  rw [h1, h2]
  cases f.references[f.number]? with
  | none => rfl
  | some l =>
    have h3 : (bareNotes f).events = bareStash f.events := rfl
    simp only [h3, bareStash_find, bareStash_filter, Option.map_some]
    rfl

theorem fuel_bare {r r' : Renderer} (h : Bare r r') : r'.fuel = r.fuel := by
  obtain ⟨w, rfl⟩ := h
  unfold Renderer.fuel bareNotes bareStash
  simp only [List.map_map]
  congr 3
  congr 1
  apply List.map_congr_left
  intro p _
  simp

theorem filter_bare {r r' : Renderer} (h : Bare r r') (e : Event) :
    (r.filter e = none ∧ r'.filter (bare e) = none) ∨
    ∃ q q', r.filter e = some q ∧ r'.filter (bare e) = some q' ∧ Bare q q' := by
  obtain ⟨w, rfl⟩ := h
  have key : ∀ f : Footnotes, (bareNotes f).open_ = bareStash f.open_ := fun _ => rfl
  cases ho : r.footnotes.open_ with
  | nil =>
    have ho' : (bareNotes r.footnotes).open_ = [] := by rw [key, ho]; rfl
    cases e with
    | start c a =>
      cases c
      case footnote l =>
        refine .inr ⟨_, _, rfl, rfl, w, ?_⟩
        simp [bareNotes, bareStash]
      case linkDefinition l =>
        refine .inr ⟨{ r with ignore := true }, { r with ignore := true, raw := w, footnotes := bareNotes r.footnotes }, ?_, ?_, w, rfl⟩
        · simp [Renderer.filter, ho]
        · simp [Renderer.filter, bare, bareContainer, ho']
      all_goals
        simp only [Renderer.filter, bare, bareContainer, ho, ho']
        cases hi : r.ignore
        · exact .inl ⟨by simp, by simp⟩
        · exact .inr ⟨r, { r with raw := w, footnotes := bareNotes r.footnotes }, by simp [hi], by simp [hi], w, rfl⟩
    | «end» c =>
      cases c
      case linkDefinition l =>
        refine .inr ⟨{ r with ignore := false }, { r with ignore := false, raw := w, footnotes := bareNotes r.footnotes }, ?_, ?_, w, rfl⟩
        · simp [Renderer.filter, ho]
        · simp [Renderer.filter, bare, bareContainer, ho']
      all_goals
        simp only [Renderer.filter, bare, bareContainer, ho, ho']
        cases hi : r.ignore
        · exact .inl ⟨by simp, by simp⟩
        · exact .inr ⟨r, { r with raw := w, footnotes := bareNotes r.footnotes }, by simp [hi], by simp [hi], w, rfl⟩
    | _ =>
      simp only [Renderer.filter, bare, ho, ho']
      cases hi : r.ignore
      · exact .inl ⟨by simp, by simp⟩
      · exact .inr ⟨r, { r with raw := w, footnotes := bareNotes r.footnotes }, by simp [hi], by simp [hi], w, rfl⟩
  | cons p rest =>
    obtain ⟨l', evs⟩ := p
    have ho' : (bareNotes r.footnotes).open_ = (l', evs.map bare) :: bareStash rest := by rw [key, ho]; rfl
    by_cases h1 : ∃ l a, e = .start (.footnote l) a
    · obtain ⟨l, a, rfl⟩ := h1
      refine .inr ⟨_, _, rfl, rfl, w, ?_⟩
      simp [bareNotes, bareStash]
    · by_cases h2 : ∃ l, e = .end (.footnote l)
      · obtain ⟨l, rfl⟩ := h2
        refine .inr ⟨{ r with footnotes := { r.footnotes with open_ := rest, events := mapInsert r.footnotes.events l' evs } },
          { r with raw := w, footnotes := { bareNotes r.footnotes with
              open_ := bareStash rest, events := mapInsert (bareNotes r.footnotes).events l' (evs.map bare) } }, ?_, ?_, w, ?_⟩
        · simp only [Renderer.filter, ho]
        · simp only [Renderer.filter, bare, bareContainer, ho']
        · have h3 : (bareNotes r.footnotes).events = bareStash r.footnotes.events := rfl
          rw [h3, bareStash_insert]
          rfl
      · refine .inr ⟨{ r with footnotes := { r.footnotes with open_ := (l', evs ++ [e]) :: rest } },
          { r with raw := w, footnotes := { bareNotes r.footnotes with open_ := (l', evs.map bare ++ [bare e]) :: bareStash rest } },
          ?_, ?_, w, by simp [bareNotes, bareStash]⟩
        all_goals
          cases e with
          | start c a =>
            cases c
            case footnote l => exact absurd ⟨l, a, rfl⟩ h1
            all_goals simp only [Renderer.filter, bare, bareContainer, ho, ho']
          | «end» c =>
            cases c
            case footnote l => exact absurd ⟨l, rfl⟩ h2
            all_goals simp only [Renderer.filter, bare, bareContainer, ho, ho']
          | _ => simp only [Renderer.filter, bare, ho, ho']

theorem bare_document (e : Event) : bare e = .end .document ↔ e = .end .document := by
  cases e with
  | «end» c => cases c <;> simp [bare, bareContainer]
  | _ => simp [bare]

theorem bare_paragraph (e : Event) : bare e = .end .paragraph ↔ e = .end .paragraph := by
  cases e with
  | «end» c => cases c <;> simp [bare, bareContainer]
  | _ => simp [bare]

theorem bare_skip (e : Event) : (bare e = .blankline ∨ bare e = .escape) ↔ (e = .blankline ∨ e = .escape) := by
  cases e <;> simp [bare]

theorem beginNotes_bare {r r' : Renderer} (h : Bare r r') : Bare r.beginNotes.1 r'.beginNotes.1 :=
  block_bare (block_bare (block_bare h 0) 0) 0

theorem endNotes_bare {r r' : Renderer} (h : Bare r r') : Bare r.endNotes.1 r'.endNotes.1 :=
  block_bare (block_bare h 0) 0

theorem endNote_bare {r r' : Renderer} (h : Bare r r') (n : Nat) (u : Bool) : Bare (r.endNote n u).1 (r'.endNote n u).1 := by
  cases u
  · exact block_bare (block_bare h 0) 0
  · exact block_bare h 0

theorem all_bare (fuel : Nat) :
    (∀ r r' e, Bare r r' → BothOk BO (Renderer.event fuel r e) (Renderer.event fuel r' (bare e))) ∧
    (∀ r r', Bare r r' → BothOk BO (Renderer.epilogue fuel r) (Renderer.epilogue fuel r')) ∧
    (∀ r r', Bare r r' → BothOk BO (Renderer.notes fuel r) (Renderer.notes fuel r')) ∧
    (∀ r r' evs u, Bare r r' → BothOk (fun x y => Bare x.1 y.1 ∧ x.2.1 = y.2.1)
      (Renderer.note fuel r evs u) (Renderer.note fuel r' (evs.map bare) u)) := by
  induction fuel with
  | zero =>
    refine ⟨?_, ?_, ?_, ?_⟩ <;> intros
    · unfold Renderer.event; exact rfl
    · unfold Renderer.epilogue; exact rfl
    · unfold Renderer.notes; exact rfl
    · unfold Renderer.note; exact rfl
  | succ fuel ih =>
    obtain ⟨ihE, ihP, ihN, ihO⟩ := ih
    refine ⟨?_, ?_, ?_, ?_⟩
    · intro r r' e h
      unfold Renderer.event
      rcases filter_bare h e with ⟨h1, h2⟩ | ⟨q, q', h1, h2, hq⟩
      · rw [h1, h2, h.img]
        simp only [bare_document]
        split
        · split
          · exact h
          · exact ihP r r' h
        · exact core_bare h e
      · rw [h1, h2]; exact hq
    · intro r r' h
      unfold Renderer.epilogue
      have hr : r'.footnotes.references = r.footnotes.references := by obtain ⟨w, rfl⟩ := h; rfl
      rw [hr]
      split
      · exact h
      · refine BothOk.bind (ihN _ _ (beginNotes_bare h)) ?_
        intro x y hx
        exact endNotes_bare hx
    · intro r r' h
      unfold Renderer.notes
      have hn : r'.footnotes.next = r.footnotes.next.map (fun x => ((x.1.1, x.1.2.map (List.map bare)), bareNotes x.2)) := by
        obtain ⟨w, rfl⟩ := h; exact next_bare _
      rw [hn]
      cases r.footnotes.next with
      | none => exact h
      | some x =>
        obtain ⟨⟨number, evs⟩, f⟩ := x
        have h' : Bare { r with footnotes := f } { r' with footnotes := bareNotes f } := by
          obtain ⟨w, rfl⟩ := h; exact ⟨w, rfl⟩
        have hb : Bare (({ r with footnotes := f } : Renderer).beginNote number).1
          (({ r' with footnotes := bareNotes f } : Renderer).beginNote number).1 := block_bare h' 0
        have he : (evs.map (List.map bare)).getD [] = (evs.getD []).map bare := by cases evs <;> rfl
        simp only [Option.map_some, he]
        refine BothOk.bind (ihO _ _ (evs.getD []) false hb) ?_
        rintro x y ⟨hx, hu⟩
        rw [hu]
        refine BothOk.bind (ihN _ _ (endNote_bare hx number y.2.1)) ?_
        intro x2 y2 hx2
        exact hx2
    · intro r r' evs u h
      cases evs with
      | nil => unfold Renderer.note; exact ⟨h, rfl⟩
      | cons e es =>
        rw [List.map_cons]
        unfold Renderer.note
        simp only [bare_skip, bare_paragraph]
        split
        · exact ihO r r' es u h
        · refine BothOk.bind (ihE r r' e h) ?_
          intro x y hx
          rw [Bare.tight hx]
          refine BothOk.bind (ihO _ _ es _ hx) ?_
          rintro x2 y2 ⟨hx2, hu2⟩
          exact ⟨hx2, hu2⟩

theorem pushEvents_bare (es : List Event) {r r' : Renderer} (h : Bare r r') :
    BothOk BO (r.pushEvents es) (r'.pushEvents (es.map bare)) := by
  induction es generalizing r r' with
  | nil => exact h
  | cons e es ih =>
    rw [List.map_cons]
    unfold Renderer.pushEvents
    refine BothOk.bind (P := BO) ?_ ?_
    · unfold Renderer.pushEvent; rw [fuel_bare h]; exact (all_bare _).1 r r' e h
    · rintro ⟨r1, o1⟩ ⟨r2, o2⟩ h1
      refine BothOk.bind (ih h1) ?_
      rintro ⟨r3, o3⟩ ⟨r4, o4⟩ h3
      exact h3

theorem bare_safe (e : Event) : SafeEvent (bare e) := by
  have ha : SafeAttrs [] := by intro e he; cases he
  cases e with
  | start c a =>
    refine ⟨?_, ha⟩
    cases c <;> first | trivial | (intro h; cases h)
  | symbol s => exact ⟨by simp, by simp⟩
  | thematicBreak a => exact ha
  | _ => trivial

theorem nest1_bare {st st' : List Container} {e : Event} (h : nest1 st e = some st') :
    nest1 (st.map bareContainer) (bare e) = some (st'.map bareContainer) := by
  have hh : ((st.map bareContainer).head?.map holdsBlocks) = st.head?.map holdsBlocks := by
    cases st with
    | nil => rfl
    | cons c st => cases c <;> rfl
  have hd : ∀ c, bareContainer c = .document ↔ c = .document := by intro c; cases c <;> simp [bareContainer]
  cases e with
  | start c a =>
    have hi : isInline (bareContainer c) = isInline c := by cases c <;> rfl
    simp only [nest1, bare, hd, hi, hh] at h ⊢
    split at h
    · cases h
    · rename_i hc
      rw [if_neg hc]
      split at h
      · rename_i hb
        cases h
        rw [if_pos hb]
        rfl
      · cases h
  | «end» c =>
    cases st with
    | nil => cases h
    | cons d st =>
      simp only [nest1, bare, List.map_cons, ne_eq, hd] at h ⊢
      split at h
      · rename_i hc
        cases h
        rw [if_pos ⟨by rw [hc.1], hc.2⟩]
      · cases h
  | thematicBreak a =>
    simp only [nest1, bare, hh] at h ⊢
    split at h
    · rename_i hb
      cases h
      rw [if_pos hb]
    · cases h
  | _ => cases h; rfl

theorem nest_bare {st st' : List Container} {es : List Event} (h : nest st es = some st') :
    nest (st.map bareContainer) (es.map bare) = some (st'.map bareContainer) := by
  induction es generalizing st with
  | nil => cases h; rfl
  | cons e es ih =>
    unfold nest at h
    rw [List.map_cons]
    unfold nest
    cases h1 : nest1 st e with
    | none => rw [h1] at h; cases h
    | some s =>
      rw [h1] at h
      rw [nest1_bare h1]
      exact ih h

theorem document_bare {es : List Event} (h : DocumentEvents es) : DocumentEvents (es.map bare) := by
  obtain ⟨a, body, rfl, hb⟩ := h
  refine ⟨[], body.map bare, by simp [bare, bareContainer], ?_⟩
  exact nest_bare hb

/-- **C56.** For every document - whatever raw HTML, texts, attributes, classes, urls and labels it holds - and
for the minified renderer and every indentation, rendering succeeds: no panic, no endless loop. -/
theorem C56_render_total (i : Option Indentation) (es : List Event) (hd : DocumentEvents es) :
    ∃ out, (Renderer.new i).output es = .ok out := by
  have h0 : ∃ out, (Renderer.new none).output es = .ok out := by
    obtain ⟨o, ho, -⟩ := C12_balanced none (by simp [SafeIndent]) (es.map bare) (document_bare hd)
      (by intro e he; obtain ⟨e', -, rfl⟩ := List.mem_map.1 he; exact bare_safe e')
    have hb := pushEvents_bare es (r := Renderer.new none) (r' := Renderer.new none) ⟨.none, rfl⟩
    unfold Renderer.output at ho ⊢
    revert hb ho
    cases (Renderer.new none).pushEvents es <;> cases (Renderer.new none).pushEvents (es.map bare) <;> intro ho hb
    · cases ho
    · exact hb.elim
    · cases ho
    · exact ⟨_, rfl⟩
  cases i with
  | none => exact h0
  | some i =>
    obtain ⟨o, ho⟩ := h0
    have := C16_indentation_is_layout i es
    unfold Renderer.minified Renderer.indented at this
    rw [ho] at this
    revert this
    cases (Renderer.new (some i)).output es with
    | error e => intro h; exact h.elim
    | ok o' => intro _; exact ⟨_, rfl⟩

/-- **C56**, from source to HTML: whatever the source, if parsing it does not panic then rendering what was
parsed does not either. -/
theorem C56_source (src : Bytes) (hu : Utf8 src) (es : List Event) (h : events src = .ok es)
    (i : Option Indentation) : ∃ out, (Renderer.new i).output es = .ok out :=
  C56_render_total i es (C32_document_events src hu es h)

/-- **C56**, parsing and rendering together: for every source below 16 KiB neither panics. -/
theorem C56_short (src : Bytes) (hu : Utf8 src) (hlen : src.length < 16383) (i : Option Indentation) :
    ∃ es out, events src = .ok es ∧ (Renderer.new i).output es = .ok out := by
  obtain ⟨evs, h⟩ := C31_no_panic_short src hu hlen
  have he : events src = .ok (evs.map (·.1)) := by
    unfold events
    rw [h]
    rfl
  obtain ⟨out, ho⟩ := C56_source src hu _ he i
  exact ⟨_, out, he, ho⟩

/-- **C56** while the events arrive: no beginning of a document makes the renderer panic, nor does it if the writer fails at any
write - then the error of the writer is returned. -/
theorem C56_writers {σ ε : Type} (w : Sink σ ε) (s : σ) (i : Option Indentation) (es rest : List Event) (hd : DocumentEvents (es ++ rest)) :
    (∃ out, (Renderer.new i).output es = .ok out) ∧ (∃ s' err, (Renderer.new i).pushEventsTo w s es = .ok (s', err)) ∧
      (∃ s' err, (Renderer.new i).writeEvents w s es = .ok (s', Option.map IoError.own err)) := by
  obtain ⟨out, h⟩ := C56_render_total i _ hd
  unfold Renderer.output at h
  obtain ⟨⟨r, o⟩, h, -⟩ := bind_ok h
  rw [pushEvents_append] at h
  obtain ⟨⟨r1, o1⟩, h1, -⟩ := bind_ok h
  refine ⟨⟨o1.flatten, by simp [Renderer.output, h1, bind, Except.bind, pure, Except.pure]⟩, ?_, ?_⟩
  · obtain ⟨f, e, h2, -⟩ := C18_push_stops_at_failure w es _ r1 o1 s h1
    exact ⟨f, e, h2⟩
  · obtain ⟨f, e, h2, -⟩ := C18_write_reports_own_error w es _ r1 o1 s h1
    exact ⟨f, e, h2⟩

/-- A document with raw HTML, a class that ends its attribute, and a footnote that refers to itself inside of an image. -/
def rawExample : List Event :=
  [.start .document [],
    .start (.div (b! "a\" b")) [],
    .start (.rawBlock (b! "html")) [], .str (b! "</div><p>"), .end (.rawBlock (b! "html")),
    .start .paragraph [], .start (.image (b! "u") .inline) [],
    .footnoteReference (b! "n"), .end (.image (b! "u") .inline), .end .paragraph,
    .end (.div (b! "a\" b")),
    .start (.footnote (b! "n")) [],
    .start .paragraph [], .footnoteReference (b! "n"), .start (.rawInline (b! "html")) [], .str (b! "<p"), .end (.rawInline (b! "html")),
    .end .paragraph, .end (.footnote (b! "n")),
    .end .document]

theorem rawExample_document : DocumentEvents rawExample := ⟨[], rawExample.tail.dropLast, by decide +kernel, by decide +kernel⟩

example : ∃ out, (Renderer.new (some ⟨b! "<", 3⟩)).output rawExample = .ok out :=
  C56_render_total (some ⟨b! "<", 3⟩) rawExample rawExample_document

example : ∃ es out, events (b! "`<p`{=html} ![[^n]](u\n\n[^n]: [^n]\n") = .ok es ∧ (Renderer.new none).output es = .ok out :=
  C56_short _ ⟨"`<p`{=html} ![[^n]](u\n\n[^n]: [^n]\n".toList, by decide +kernel⟩ (by decide +kernel) none

example : ∃ s' err, (Renderer.new none).writeEvents (boundedSink 7) [] (rawExample.take 9) = .ok (s', Option.map IoError.own err) :=
  (C56_writers (boundedSink 7) [] none (rawExample.take 9) (rawExample.drop 9) (by rw [List.take_append_drop]; exact rawExample_document)).2.2

/-- Without the nesting it can: an image is ended that was never started. -/
theorem C56_unnested_panics : Renderer.default.output [.start .document [], .end (.image [] .inline), .end .document] = .error .overflow := by
  decide +kernel

end Jotdown.Html
