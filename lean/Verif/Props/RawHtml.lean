import Verif.Spec.RawHtml
import Verif.Props.RenderTotal
/-! # Property C57: apart from raw HTML the output is balanced -/
namespace Jotdown.Html
open Jotdown

def dimRaw : Raw → Raw
  | .html => .other
  | w => w

def dimStash (m : List (Bytes × List Event)) : List (Bytes × List Event) := m.map (fun p => (p.1, p.2.map dim))

def dimNotes (f : Footnotes) : Footnotes := { f with open_ := dimStash f.open_, events := dimStash f.events }

def Known (T : List Event) (e : Event) : Prop := ∀ s, e = .str s → e ∈ T

/-- The second renderer has seen the same events without raw HTML, all known. -/
structure Dim (T : List Event) (r r' : Renderer) : Prop where
  eq : r' = { r with raw := dimRaw r.raw, footnotes := dimNotes r.footnotes }
  open_ : ∀ p ∈ r.footnotes.open_, ∀ e ∈ p.2, Known T e
  events : ∀ p ∈ r.footnotes.events, ∀ e ∈ p.2, Known T e

theorem WithTexts.append {T : List Event} {a b c d : Bytes} (h : WithTexts T a b) (h' : WithTexts T c d) : WithTexts T (a ++ c) (b ++ d) := by
  induction h with
  | nil => exact h'
  | keep c _ ih => exact .keep c ih
  | text hs _ ih => rw [List.append_assoc]; exact .text hs ih

theorem WithTexts.refl (T : List Event) (a : Bytes) : WithTexts T a a := by
  induction a with
  | nil => exact .nil
  | cons c a ih => exact .keep c ih

/-- The same for lists of writes. -/
def Wit (T : List Event) (o o' : Out) : Prop := WithTexts T o'.flatten o.flatten

theorem Wit.append {T : List Event} {a b c d : Out} (h : Wit T a b) (h' : Wit T c d) : Wit T (a ++ c) (b ++ d) := by
  unfold Wit; rw [List.flatten_append, List.flatten_append]; exact WithTexts.append h h'

theorem Wit.refl (T : List Event) (o : Out) : Wit T o o := WithTexts.refl _ _

theorem Wit.of_eq (T : List Event) {o o' : Out} (h : o = o') : Wit T o o' := h ▸ Wit.refl T o

def DO (T : List Event) (x y : Renderer × Out) : Prop := Dim T x.1 y.1 ∧ Wit T x.2 y.2

theorem Dim.firstLine {T : List Event} {r r' : Renderer} (h : Dim T r r') (b : Bool) : Dim T { r with firstLine := b } { r' with firstLine := b } := by
  obtain ⟨rfl, h1, h2⟩ := h
  exact ⟨rfl, h1, h2⟩

theorem Dim.img {T : List Event} {r r' : Renderer} (h : Dim T r r') : r'.imgAltText = r.imgAltText := by obtain ⟨rfl, -, -⟩ := h; rfl
theorem Dim.tight {T : List Event} {r r' : Renderer} (h : Dim T r r') : r'.listTightness = r.listTightness := by obtain ⟨rfl, -, -⟩ := h; rfl

theorem block_dim {T : List Event} {r r' : Renderer} (h : Dim T r r') (c : Int) : Dim T (r.block c).1 (r'.block c).1 ∧ (r.block c).2 = (r'.block c).2 := by
  obtain ⟨rfl, h1, h2⟩ := h
  have key : (({ r with raw := dimRaw r.raw, footnotes := dimNotes r.footnotes } : Renderer).block c) =
      ({ (r.block c).1 with raw := dimRaw r.raw, footnotes := dimNotes r.footnotes }, (r.block c).2) := by
    unfold Renderer.block
    rcases hi : r.indent with _ | i
    · simp only [hi]
    · simp only [hi, Renderer.indentOut]
      split <;> split <;> simp [hi]
  obtain ⟨d, hd⟩ := block_fst r c
  rw [key]
  refine ⟨⟨?_, ?_, ?_⟩, rfl⟩
  · rw [hd]
  · rw [hd]; exact h1
  · rw [hd]; exact h2

theorem block_do {T : List Event} {r r' : Renderer} (h : Dim T r r') (c : Int) : DO T (r.block c) (r'.block c) :=
  ⟨(block_dim h c).1, Wit.of_eq T (block_dim h c).2⟩

theorem isBlock_dim (c : Container) : isBlock (dimContainer c) = isBlock c := by cases c <;> rfl
theorem isBlockContainer_dim (c : Container) : isBlockContainer (dimContainer c) = isBlockContainer c := by cases c <;> rfl
theorem isImage_dim (c : Container) : isImage (dimContainer c) = isImage c := by cases c <;> rfl

theorem startBlock_dim {T : List Event} {r r' : Renderer} (h : Dim T r r') (c : Container) :
    DO T (r.startBlock c) (r'.startBlock (dimContainer c)) := by
  unfold Renderer.startBlock
  rw [isBlock_dim, isBlockContainer_dim]
  split
  · exact block_do h _
  · exact ⟨h, Wit.refl _ _⟩

theorem closeBlock_dim {T : List Event} {r r' : Renderer} (h : Dim T r r') (c : Container) :
    DO T (r.closeBlock c) (r'.closeBlock (dimContainer c)) := by
  unfold Renderer.closeBlock
  rw [isBlockContainer_dim]
  split
  · exact block_do h _
  · exact ⟨h, Wit.refl _ _⟩

theorem openTag_dim {T : List Event} {r r' : Renderer} (h : Dim T r r') (c : Container) :
    BothOk (fun x y => Dim T x.1 y.1 ∧ x.2 = y.2) (r.openTag c) (r'.openTag (dimContainer c)) := by
  obtain ⟨rfl, h1, h2⟩ := h
  cases c with
  | tableCell a hd => cases hd <;> exact ⟨⟨rfl, h1, h2⟩, rfl⟩
  | footnote l => exact rfl
  | rawBlock f =>
    refine ⟨⟨?_, h1, h2⟩, rfl⟩
    by_cases hf : f = b! "html"
    · subst hf; rfl
    · simp [Renderer.openTag, dimContainer, hf, dimRaw]
  | rawInline f =>
    refine ⟨⟨?_, h1, h2⟩, rfl⟩
    by_cases hf : f = b! "html"
    · subst hf; rfl
    · simp [Renderer.openTag, dimContainer, hf, dimRaw]
  | _ => exact ⟨⟨rfl, h1, h2⟩, rfl⟩

theorem closeTag_dim {T : List Event} {r r' : Renderer} (h : Dim T r r') (c : Container) :
    BothOk (fun x y => Dim T x.1 y.1 ∧ x.2 = y.2) (r.closeTag c) (r'.closeTag (dimContainer c)) := by
  obtain ⟨rfl, h1, h2⟩ := h
  cases c with
  | tableCell a hd => cases hd <;> exact ⟨⟨rfl, h1, h2⟩, rfl⟩
  | footnote l => exact rfl
  | document => exact rfl
  | linkDefinition l => exact rfl
  | paragraph =>
    simp only [Renderer.closeTag, dimContainer]
    split <;> exact ⟨⟨rfl, h1, h2⟩, rfl⟩
  | image u t =>
    simp only [Renderer.closeTag, dimContainer]
    cases csub r.imgAltText 1 with
    | error e => exact rfl
    | ok n => exact ⟨⟨rfl, h1, h2⟩, rfl⟩
  | _ => exact ⟨⟨rfl, h1, h2⟩, rfl⟩

theorem closeStart_dim {T : List Event} {r r' : Renderer} (h : Dim T r r') (c : Container) :
    Dim T (r.closeStart c).1 (r'.closeStart (dimContainer c)).1 ∧ (r.closeStart c).2 = (r'.closeStart (dimContainer c)).2 := by
  cases c with
  | taskListItem b =>
    have hb := block_dim h 0
    refine ⟨hb.1, ?_⟩
    simp only [Renderer.closeStart, dimContainer, hb.2]
  | image u t => exact ⟨h, by simp only [Renderer.closeStart, dimContainer, h.img]⟩
  | _ => exact ⟨h, rfl⟩

theorem attrsOut_dim (c : Container) (l : List (Bytes × Bytes)) : attrsOut (dimContainer c) l = attrsOut c l := by
  have hc : writeClass (dimContainer c) true = writeClass c true := by cases c <;> rfl
  induction l with
  | nil => rfl
  | cons p l ih =>
    obtain ⟨a, v⟩ := p
    unfold attrsOut
    rw [ih, hc]

theorem impliedAttrs_dim (c : Container) (k : List Bytes) : impliedAttrs (dimContainer c) k = impliedAttrs c k := by cases c <;> rfl

theorem tagRest_dim {T : List Event} {r r' : Renderer} (h : Dim T r r') (c : Container) (a : Attr.Attributes) (o : Out) :
    r.tagRest c a o = r'.tagRest (dimContainer c) a o := by
  unfold Renderer.tagRest
  rw [attrsOut_dim, impliedAttrs_dim, (closeStart_dim h c).2]

theorem start_dim {T : List Event} {r r' : Renderer} (h : Dim T r r') (c : Container) (a : Attr.Attributes) :
    BothOk (DO T) (r.start c a) (r'.start (dimContainer c) a) := by
  have hb := startBlock_dim h c
  unfold Renderer.start
  rw [hb.1.img, isImage_dim]
  refine Lex.ite_intro (P := fun x => BothOk (DO T) x _) (fun hc => ?_) (fun hc => ?_)
  · rw [if_pos hc]; exact hb
  · rw [if_neg hc]
    have ht := openTag_dim hb.1 c
    revert ht
    cases h1 : (r.startBlock c).1.openTag c <;> cases h2 : (r'.startBlock (dimContainer c)).1.openTag (dimContainer c) <;> intro ht
    · exact ht
    · exact ht.elim
    · exact ht.elim
    · rename_i x y
      obtain ⟨x1, x2⟩ := x
      obtain ⟨y1, y2⟩ := y
      obtain ⟨ht1, ht2⟩ := ht
      simp only at ht1 ht2
      subst ht2
      cases x2 with
      | none => exact ⟨ht1, hb.2⟩
      | some o2 => exact ⟨(closeStart_dim ht1 c).1.firstLine _, hb.2.append (Wit.of_eq T (tagRest_dim ht1 c a o2))⟩

theorem close_dim {T : List Event} {r r' : Renderer} (h : Dim T r r') (c : Container) :
    BothOk (DO T) (r.close c) (r'.close (dimContainer c)) := by
  have hb := closeBlock_dim h c
  unfold Renderer.close
  rw [hb.1.img, isImage_dim]
  refine Lex.ite_intro (P := fun x => BothOk (DO T) x _) (fun hc => ?_) (fun hc => ?_)
  · rw [if_pos hc]; exact hb
  · rw [if_neg hc]
    have ht := closeTag_dim hb.1 c
    revert ht
    cases h1 : (r.closeBlock c).1.closeTag c <;> cases h2 : (r'.closeBlock (dimContainer c)).1.closeTag (dimContainer c) <;> intro ht
    · exact ht
    · exact ht.elim
    · exact ht.elim
    · rename_i x y
      obtain ⟨x1, x2⟩ := x
      obtain ⟨y1, y2⟩ := y
      obtain ⟨ht1, ht2⟩ := ht
      simp only at ht1 ht2
      subst ht2
      cases x2 with
      | none => exact ⟨ht1, hb.2⟩
      | some o2 => exact ⟨ht1.firstLine _, hb.2.append (Wit.refl _ _)⟩

theorem str_dim {T : List Event} {r r' : Renderer} (h : Dim T r r') (s : Bytes) (hs : Event.str s ∈ T) : Wit T (r.str s) (r'.str s) := by
  obtain ⟨rfl, -, -⟩ := h
  unfold Renderer.str
  cases r.raw
  · exact Wit.refl _ _
  · have := WithTexts.text hs (WithTexts.nil (es := T))
    simpa [Wit, dimRaw] using this
  · exact Wit.refl _ _

theorem core_dim {T : List Event} {r r' : Renderer} (h : Dim T r r') (e : Event) (he : Known T e) : BothOk (DO T) (r.core e) (r'.core (dim e)) := by
  have hb := block_do h 0
  have hi : r.indentOut = r'.indentOut := by obtain ⟨rfl, -, -⟩ := h; rfl
  cases e with
  | start c a => exact start_dim h c a
  | «end» c => exact close_dim h c
  | str s => exact ⟨h.firstLine _, str_dim h s (he s rfl)⟩
  | footnoteReference l =>
    obtain ⟨rfl, h1, h2⟩ := h
    have key : (dimNotes r.footnotes).reference l = ((r.footnotes.reference l).1, dimNotes (r.footnotes.reference l).2) := by
      simp only [Footnotes.reference, dimNotes]
      cases labelPos l r.footnotes.references <;> rfl
    have ho : (r.footnotes.reference l).2.open_ = r.footnotes.open_ ∧ (r.footnotes.reference l).2.events = r.footnotes.events := by
      simp only [Footnotes.reference]
      cases labelPos l r.footnotes.references <;> exact ⟨rfl, rfl⟩
    refine ⟨⟨?_, ?_, ?_⟩, ?_⟩
    · simp only [Renderer.footnoteReference, key]
    · simp only [Renderer.footnoteReference, ho.1]; exact h1
    · simp only [Renderer.footnoteReference, ho.2]; exact h2
    · simp only [Renderer.footnoteReference, key]
      exact Wit.refl _ _
  | hardbreak => exact ⟨hb.1.firstLine _, (Wit.refl _ [b! "<br>"]).append hb.2⟩
  | softbreak => exact ⟨h.firstLine _, Wit.of_eq T (by rw [hi])⟩
  | thematicBreak a =>
    exact ⟨hb.1.firstLine _, ((hb.2.append (Wit.refl _ _)).append (Wit.refl _ _)).append (Wit.refl _ _)⟩
  | _ => exact ⟨h.firstLine _, Wit.refl _ _⟩

theorem dimStash_filter (m : List (Bytes × List Event)) (k : Bytes) :
    (dimStash m).filter (fun p => p.1 != k) = dimStash (m.filter (fun p => p.1 != k)) := by
  unfold dimStash
  rw [List.filter_map]
  rfl

theorem dimStash_find (m : List (Bytes × List Event)) (k : Bytes) :
    ((dimStash m).find? (fun p => p.1 == k)).map (·.2) = ((m.find? (fun p => p.1 == k)).map (·.2)).map (List.map dim) := by
  induction m with
  | nil => rfl
  | cons p m ih =>
    have : dimStash (p :: m) = (p.1, p.2.map dim) :: dimStash m := rfl
    rw [this, List.find?_cons, List.find?_cons]
    cases p.1 == k
    · exact ih
    · rfl

theorem dimStash_insert (m : List (Bytes × List Event)) (k : Bytes) (v : List Event) :
    mapInsert (dimStash m) k (v.map dim) = dimStash (mapInsert m k v) := by
  unfold mapInsert
  rw [dimStash_filter]
  rfl

theorem next_dim (f : Footnotes) : (dimNotes f).next =
    f.next.map (fun x => ((x.1.1, x.1.2.map (List.map dim)), dimNotes x.2)) := by
  unfold Footnotes.next
  have h1 : (dimNotes f).references = f.references := rfl
  have h2 : (dimNotes f).number = f.number := rfl
  rw [h1, h2]
  cases f.references[f.number]? with
  | none => rfl
  | some l =>
    have h3 : (dimNotes f).events = dimStash f.events := rfl
    simp only [h3, dimStash_find, dimStash_filter, Option.map_some]
    rfl

theorem dim_document (e : Event) : dim e = .end .document ↔ e = .end .document := by
  cases e with
  | «end» c => cases c <;> simp [dim, dimContainer]
  | _ => simp [dim]

theorem dim_paragraph (e : Event) : dim e = .end .paragraph ↔ e = .end .paragraph := by
  cases e with
  | «end» c => cases c <;> simp [dim, dimContainer]
  | _ => simp [dim]

theorem dim_skip (e : Event) : (dim e = .blankline ∨ dim e = .escape) ↔ (e = .blankline ∨ e = .escape) := by
  cases e <;> simp [dim]

theorem nest1_dim {st st' : List Container} {e : Event} (h : nest1 st e = some st') :
    nest1 (st.map dimContainer) (dim e) = some (st'.map dimContainer) := by
  have hh : ((st.map dimContainer).head?.map holdsBlocks) = st.head?.map holdsBlocks := by
    cases st with
    | nil => rfl
    | cons c st => cases c <;> rfl
  have hd : ∀ c, dimContainer c = .document ↔ c = .document := by intro c; cases c <;> simp [dimContainer]
  cases e with
  | start c a =>
    have hi : isInline (dimContainer c) = isInline c := by cases c <;> rfl
    simp only [nest1, dim, hd, hi, hh] at h ⊢
    split at h
    · cases h
    · rename_i hc
      rw [if_neg hc]
      split at h
      · rename_i hb
        cases h
        rw [if_pos hb]
        rfl
      · cases h
  | «end» c =>
    cases st with
    | nil => cases h
    | cons d st =>
      simp only [nest1, dim, List.map_cons, ne_eq, hd] at h ⊢
      split at h
      · rename_i hc
        cases h
        rw [if_pos ⟨by rw [hc.1], hc.2⟩]
      · cases h
  | thematicBreak a =>
    simp only [nest1, dim, hh] at h ⊢
    split at h
    · rename_i hb
      cases h
      rw [if_pos hb]
    · cases h
  | _ => cases h; rfl

theorem nest_dim {st st' : List Container} {es : List Event} (h : nest st es = some st') :
    nest (st.map dimContainer) (es.map dim) = some (st'.map dimContainer) := by
  induction es generalizing st with
  | nil => cases h; rfl
  | cons e es ih =>
    unfold nest at h
    rw [List.map_cons]
    unfold nest
    cases h1 : nest1 st e with
    | none => rw [h1] at h; cases h
    | some s =>
      rw [h1] at h
      rw [nest1_dim h1]
      exact ih h

theorem document_dim {es : List Event} (h : DocumentEvents es) : DocumentEvents (es.map dim) := by
  obtain ⟨a, body, rfl, hb⟩ := h
  refine ⟨a, body.map dim, by simp [dim, dimContainer], ?_⟩
  exact nest_dim hb


theorem fuel_dim {T : List Event} {r r' : Renderer} (h : Dim T r r') : r'.fuel = r.fuel := by
  obtain ⟨rfl, -, -⟩ := h
  unfold Renderer.fuel dimNotes dimStash
  simp only [List.map_map]
  congr 3
  congr 1
  apply List.map_congr_left
  intro p _
  simp

theorem known_insert {T : List Event} {m : List (Bytes × List Event)} {k : Bytes} {v : List Event}
    (h : ∀ p ∈ m, ∀ e ∈ p.2, Known T e) (hv : ∀ e ∈ v, Known T e) : ∀ p ∈ mapInsert m k v, ∀ e ∈ p.2, Known T e := by
  intro p hp
  unfold mapInsert at hp
  rcases List.mem_cons.1 hp with rfl | hp
  · exact hv
  · exact h p (List.mem_filter.1 hp).1

theorem filter_dim {T : List Event} {r r' : Renderer} (h : Dim T r r') (e : Event) (he : Known T e) :
    (r.filter e = none ∧ r'.filter (dim e) = none) ∨
    ∃ q q', r.filter e = some q ∧ r'.filter (dim e) = some q' ∧ Dim T q q' := by
  obtain ⟨rfl, k1, k2⟩ := h
  have key : ∀ f : Footnotes, (dimNotes f).open_ = dimStash f.open_ := fun _ => rfl
  cases ho : r.footnotes.open_ with
  | nil =>
    have ho' : (dimNotes r.footnotes).open_ = [] := by rw [key, ho]; rfl
    cases e with
    | start c a =>
      cases c
      case footnote l =>
        refine .inr ⟨_, _, rfl, rfl, ?_, ?_, k2⟩
        · simp [dimNotes, dimStash]
        · intro p hp
          rcases List.mem_cons.1 hp with rfl | hp
          · intro e he; cases he
          · exact k1 p hp
      case linkDefinition l =>
        refine .inr ⟨{ r with ignore := true }, { r with ignore := true, raw := dimRaw r.raw, footnotes := dimNotes r.footnotes }, ?_, ?_, rfl, k1, k2⟩
        · simp [Renderer.filter, ho]
        · simp [Renderer.filter, dim, dimContainer, ho']
      all_goals
        simp only [Renderer.filter, dim, dimContainer, ho, ho']
        cases hi : r.ignore
        · exact .inl ⟨by simp, by simp⟩
        · exact .inr ⟨r, { r with raw := dimRaw r.raw, footnotes := dimNotes r.footnotes }, by simp [hi], by simp [hi], rfl, k1, k2⟩
    | «end» c =>
      cases c
      case linkDefinition l =>
        refine .inr ⟨{ r with ignore := false }, { r with ignore := false, raw := dimRaw r.raw, footnotes := dimNotes r.footnotes }, ?_, ?_, rfl, k1, k2⟩
        · simp [Renderer.filter, ho]
        · simp [Renderer.filter, dim, dimContainer, ho']
      all_goals
        simp only [Renderer.filter, dim, dimContainer, ho, ho']
        cases hi : r.ignore
        · exact .inl ⟨by simp, by simp⟩
        · exact .inr ⟨r, { r with raw := dimRaw r.raw, footnotes := dimNotes r.footnotes }, by simp [hi], by simp [hi], rfl, k1, k2⟩
    | _ =>
      simp only [Renderer.filter, dim, ho, ho']
      cases hi : r.ignore
      · exact .inl ⟨by simp, by simp⟩
      · exact .inr ⟨r, { r with raw := dimRaw r.raw, footnotes := dimNotes r.footnotes }, by simp [hi], by simp [hi], rfl, k1, k2⟩
  | cons p rest =>
    obtain ⟨l', evs⟩ := p
    have ho' : (dimNotes r.footnotes).open_ = (l', evs.map dim) :: dimStash rest := by rw [key, ho]; rfl
    have kv : ∀ e ∈ evs, Known T e := k1 (l', evs) (by rw [ho]; exact List.mem_cons_self ..)
    have kr : ∀ p ∈ rest, ∀ e ∈ p.2, Known T e := fun p hp => k1 p (by rw [ho]; exact List.mem_cons_of_mem _ hp)
    by_cases h1 : ∃ l a, e = .start (.footnote l) a
    · obtain ⟨l, a, rfl⟩ := h1
      refine .inr ⟨_, _, rfl, rfl, ?_, ?_, k2⟩
      · simp [dimNotes, dimStash]
      · intro p hp
        rcases List.mem_cons.1 hp with rfl | hp
        · intro e he; cases he
        · exact k1 p hp
    · by_cases h2 : ∃ l, e = .end (.footnote l)
      · obtain ⟨l, rfl⟩ := h2
        refine .inr ⟨{ r with footnotes := { r.footnotes with open_ := rest, events := mapInsert r.footnotes.events l' evs } },
          { r with raw := dimRaw r.raw, footnotes := { dimNotes r.footnotes with
              open_ := dimStash rest, events := mapInsert (dimNotes r.footnotes).events l' (evs.map dim) } }, ?_, ?_, ?_, kr, known_insert k2 kv⟩
        · simp only [Renderer.filter, ho]
        · simp only [Renderer.filter, dim, dimContainer, ho']
        · have h3 : (dimNotes r.footnotes).events = dimStash r.footnotes.events := rfl
          rw [h3, dimStash_insert]
          rfl
      · refine .inr ⟨{ r with footnotes := { r.footnotes with open_ := (l', evs ++ [e]) :: rest } },
          { r with raw := dimRaw r.raw, footnotes := { dimNotes r.footnotes with open_ := (l', evs.map dim ++ [dim e]) :: dimStash rest } },
          ?_, ?_, by simp [dimNotes, dimStash], ?_, k2⟩
        rotate_left 2
        · intro p hp
          rcases List.mem_cons.1 hp with rfl | hp
          · intro e' he'
            rcases List.mem_append.1 he' with he' | he'
            · exact kv e' he'
            · rw [List.mem_singleton.1 he']; exact he
          · exact kr p hp
        all_goals
          clear he
          cases e with
          | start c a =>
            cases c
            case footnote l => exact absurd ⟨l, a, rfl⟩ h1
            all_goals simp only [Renderer.filter, dim, dimContainer, ho, ho']
          | «end» c =>
            cases c
            case footnote l => exact absurd ⟨l, rfl⟩ h2
            all_goals simp only [Renderer.filter, dim, dimContainer, ho, ho']
          | _ => simp only [Renderer.filter, dim, ho, ho']

theorem beginNotes_dim {T : List Event} {r r' : Renderer} (h : Dim T r r') : DO T r.beginNotes r'.beginNotes := by
  have h1 := block_do h 0
  have h2 := block_do h1.1 0
  have h3 := block_do h2.1 0
  exact ⟨h3.1, ((((h1.2.append (Wit.refl _ _)).append h2.2).append (Wit.refl _ _)).append h3.2).append (Wit.refl _ _)⟩

theorem endNotes_dim {T : List Event} {r r' : Renderer} (h : Dim T r r') : DO T r.endNotes r'.endNotes := by
  have h1 := block_do h 0
  have h2 := block_do h1.1 0
  exact ⟨h2.1, ((h1.2.append (Wit.refl _ _)).append h2.2).append (Wit.refl _ _)⟩

theorem beginNote_dim {T : List Event} {r r' : Renderer} (h : Dim T r r') (n : Nat) : DO T (r.beginNote n) (r'.beginNote n) := by
  have h1 := block_do h 0
  exact ⟨h1.1, h1.2.append (Wit.refl _ _)⟩

theorem endNote_dim {T : List Event} {r r' : Renderer} (h : Dim T r r') (n : Nat) (u : Bool) : DO T (r.endNote n u) (r'.endNote n u) := by
  have h1 := block_do h 0
  cases u
  · have h2 := block_do h1.1 0
    exact ⟨h2.1, (((h1.2.append (Wit.refl _ _)).append (Wit.refl _ _)).append h2.2).append (Wit.refl _ _)⟩
  · exact ⟨h1.1, (((Wit.refl _ []).append (Wit.refl _ _)).append h1.2).append (Wit.refl _ _)⟩

theorem finalNewline_dim {T : List Event} {r r' : Renderer} (h : Dim T r r') : Wit T r.finalNewline r'.finalNewline := by
  obtain ⟨rfl, -, -⟩ := h
  exact Wit.refl _ _

theorem next_known {T : List Event} {f f' : Footnotes} {n : Nat} {evs : Option (List Event)} (h : ∀ p ∈ f.events, ∀ e ∈ p.2, Known T e)
    (hn : f.next = some ((n, evs), f')) : f'.open_ = f.open_ ∧ (∀ p ∈ f'.events, ∀ e ∈ p.2, Known T e) ∧ ∀ e ∈ evs.getD [], Known T e := by
  unfold Footnotes.next at hn
  split at hn
  · cases hn
  · rename_i l _
    simp only [Option.some.injEq, Prod.mk.injEq] at hn
    obtain ⟨⟨-, rfl⟩, rfl⟩ := hn
    refine ⟨rfl, fun p hp => h p (List.mem_filter.1 hp).1, ?_⟩
    cases hf : f.events.find? (fun p => p.1 == l) with
    | none => intro e he; cases he
    | some p => exact h p (List.mem_of_find?_eq_some hf)

theorem all_dim (T : List Event) (fuel : Nat) :
    (∀ r r' e, Dim T r r' → Known T e → BothOk (DO T) (Renderer.event fuel r e) (Renderer.event fuel r' (dim e))) ∧
    (∀ r r', Dim T r r' → BothOk (DO T) (Renderer.epilogue fuel r) (Renderer.epilogue fuel r')) ∧
    (∀ r r', Dim T r r' → BothOk (DO T) (Renderer.notes fuel r) (Renderer.notes fuel r')) ∧
    (∀ r r' evs u, Dim T r r' → (∀ e ∈ evs, Known T e) → BothOk (fun x y => Dim T x.1 y.1 ∧ x.2.1 = y.2.1 ∧ Wit T x.2.2 y.2.2)
      (Renderer.note fuel r evs u) (Renderer.note fuel r' (evs.map dim) u)) := by
  induction fuel with
  | zero =>
    refine ⟨?_, ?_, ?_, ?_⟩ <;> intros
    · unfold Renderer.event; exact rfl
    · unfold Renderer.epilogue; exact rfl
    · unfold Renderer.notes; exact rfl
    · unfold Renderer.note; exact rfl
  | succ fuel ih =>
    obtain ⟨ihE, ihP, ihN, ihO⟩ := ih
    refine ⟨?_, ?_, ?_, ?_⟩
    · intro r r' e h he
      unfold Renderer.event
      rcases filter_dim h e he with ⟨h1, h2⟩ | ⟨q, q', h1, h2, hq⟩
      · rw [h1, h2, h.img]
        simp only [dim_document]
        split
        · split
          · exact ⟨h, Wit.refl _ _⟩
          · exact ihP r r' h
        · exact core_dim h e he
      · rw [h1, h2]; exact ⟨hq, Wit.refl _ _⟩
    · intro r r' h
      unfold Renderer.epilogue
      have hr : r'.footnotes.references = r.footnotes.references := by obtain ⟨rfl, -, -⟩ := h; rfl
      rw [hr]
      split
      · exact ⟨h, finalNewline_dim h⟩
      · have hb := beginNotes_dim h
        refine BothOk.bind (ihN _ _ hb.1) ?_
        rintro x y ⟨hx, hl⟩
        have he := endNotes_dim hx
        exact ⟨he.1, ((hb.2.append hl).append he.2).append (finalNewline_dim he.1)⟩
    · intro r r' h
      unfold Renderer.notes
      have hn : r'.footnotes.next = r.footnotes.next.map (fun x => ((x.1.1, x.1.2.map (List.map dim)), dimNotes x.2)) := by
        obtain ⟨rfl, -, -⟩ := h; exact next_dim _
      rw [hn]
      cases hx : r.footnotes.next with
      | none => exact ⟨h, Wit.refl _ _⟩
      | some x =>
        obtain ⟨⟨number, evs⟩, f⟩ := x
        obtain ⟨k1, k2, k3⟩ := next_known h.events hx
        have h' : Dim T { r with footnotes := f } { r' with footnotes := dimNotes f } := by
          obtain ⟨rfl, h1, h2⟩ := h
          exact ⟨rfl, by simp only [k1]; exact h1, k2⟩
        have hb := beginNote_dim h' number
        have he : (evs.map (List.map dim)).getD [] = (evs.getD []).map dim := by cases evs <;> rfl
        simp only [Option.map_some, he]
        refine BothOk.bind (ihO _ _ (evs.getD []) false hb.1 k3) ?_
        rintro x y ⟨hx, hu, hl⟩
        rw [hu]
        have hend := endNote_dim hx number y.2.1
        refine BothOk.bind (ihN _ _ hend.1) ?_
        rintro x2 y2 ⟨hx2, hl2⟩
        exact ⟨hx2, ((hb.2.append hl).append hend.2).append hl2⟩
    · intro r r' evs u h hk
      cases evs with
      | nil => unfold Renderer.note; exact ⟨h, rfl, Wit.refl _ _⟩
      | cons e es =>
        have hk' : ∀ e ∈ es, Known T e := fun e he => hk e (List.mem_cons_of_mem _ he)
        rw [List.map_cons]
        unfold Renderer.note
        simp only [dim_skip, dim_paragraph]
        split
        · exact ihO r r' es u h hk'
        · refine BothOk.bind (ihE r r' e h (hk e (List.mem_cons_self ..))) ?_
          rintro x y ⟨hx, hl⟩
          rw [Dim.tight hx]
          refine BothOk.bind (ihO _ _ es _ hx hk') ?_
          rintro x2 y2 ⟨hx2, hu2, hl2⟩
          exact ⟨hx2, hu2, ((Wit.refl _ _).append hl).append hl2⟩

theorem pushEvents_dim {T : List Event} (es : List Event) (hk : ∀ e ∈ es, Known T e) {r r' : Renderer} (h : Dim T r r') :
    BothOk (DO T) (r.pushEvents es) (r'.pushEvents (es.map dim)) := by
  induction es generalizing r r' with
  | nil => exact ⟨h, Wit.refl _ _⟩
  | cons e es ih =>
    rw [List.map_cons]
    unfold Renderer.pushEvents
    refine BothOk.bind (P := DO T) ?_ ?_
    · unfold Renderer.pushEvent; rw [fuel_dim h]; exact (all_dim T _).1 r r' e h (hk e (List.mem_cons_self ..))
    · rintro ⟨r1, o1⟩ ⟨r2, o2⟩ ⟨h1, h2⟩
      refine BothOk.bind (ih (fun e he => hk e (List.mem_cons_of_mem _ he)) h1) ?_
      rintro ⟨r3, o3⟩ ⟨r4, o4⟩ ⟨h3, h4⟩
      exact ⟨h3, h2.append h4⟩

/-- **C57.** For every document: rendering it, and rendering it with raw HTML taken for raw text of no format (which is not
output), both succeed; the tags of the second output are balanced, and the first is the second with some texts of the
document inserted. So nothing but texts in raw HTML can unbalance the output. -/
theorem C57_raw_html_inserted (i : Option Indentation) (hi : SafeIndent i) (es : List Event) (hd : DocumentEvents es)
    (hs : ∀ e ∈ es, SafeEvent (dim e)) :
    ∃ out out', (Renderer.new i).output es = .ok out ∧ (Renderer.new i).output (es.map dim) = .ok out' ∧
      Balanced out' ∧ WithTexts es out' out := by
  obtain ⟨o', ho', hbal⟩ := C12_balanced i hi (es.map dim) (document_dim hd)
    (by intro e he; obtain ⟨e', he', rfl⟩ := List.mem_map.1 he; exact hs e' he')
  have h0 : Dim es (Renderer.new i) (Renderer.new i) :=
    ⟨rfl, (by intro p hp; cases hp), (by intro p hp; cases hp)⟩
  have hb := pushEvents_dim es (T := es) (fun e he s h => he) h0
  have hq := ho'
  unfold Renderer.output at hq
  revert hb hq
  cases h1 : (Renderer.new i).pushEvents es <;> cases h2 : (Renderer.new i).pushEvents (es.map dim) <;> intro hb hq
  · cases hq
  · exact hb.elim
  · cases hq
  · rename_i x y
    have : y.2.flatten = o' := by simpa [bind, Except.bind, pure, Except.pure] using hq
    exact ⟨x.2.flatten, o', by simp [Renderer.output, h1, bind, Except.bind, pure, Except.pure], ho', hbal, this ▸ hb.2⟩

theorem good_dim_safe {src : Bytes} {e : Event} {sp : Span} (h : Jotdown.Good src e sp) : SafeEvent (dim e) := by
  have hk : ∀ {a : Attr.Attributes}, Attr.KeysOk a → SafeAttrs a := by
    intro a ha e he k hk c hc
    exact isName_safe (List.all_eq_true.1 (ha e he k hk) c hc)
  by_cases hn : isRawHtml e = false
  · have := h.safe hn
    cases e with
    | start c a =>
      cases c with
      | rawBlock f =>
        have hf : f ≠ b! "html" := this.1
        simpa [dim, dimContainer, hf] using this
      | rawInline f =>
        have hf : f ≠ b! "html" := this.1
        simpa [dim, dimContainer, hf] using this
      | _ => exact this
    | _ => exact this
  · have he := h.ev
    cases e with
    | start c a =>
      cases c with
      | rawBlock f =>
        refine ⟨?_, hk he.1⟩
        simp only [dimContainer, SafeContainer]
        split
        · exact by decide +kernel
        · assumption
      | rawInline f =>
        refine ⟨?_, hk he.1⟩
        simp only [dimContainer, SafeContainer]
        split
        · exact by decide +kernel
        · assumption
      | _ => exact absurd rfl hn
    | _ => exact absurd rfl hn

/-- **C57** from source to HTML. -/
theorem C57_source (src : Bytes) (hu : Utf8 src) (es : List Event) (h : Jotdown.events src = .ok es) (i : Option Indentation) (hi : SafeIndent i) :
    ∃ out out', (Renderer.new i).output es = .ok out ∧ (Renderer.new i).output (es.map dim) = .ok out' ∧
      Balanced out' ∧ WithTexts es out' out := by
  refine C57_raw_html_inserted i hi es (C32_document_events src hu es h) ?_
  obtain ⟨evs, h1, rfl⟩ := events_ok h
  intro e hm
  obtain ⟨⟨e', sp⟩, hx, rfl⟩ := List.mem_map.1 hm
  obtain ⟨rest, rfl, hr⟩ := (offset_ok hu h1).ex
  rcases List.mem_cons.1 hx with hx' | hx'
  · cases hx'; exact ⟨trivial, by intro e he; cases he⟩
  · exact good_dim_safe (hr.good _ hx')

/- A concrete case: raw HTML that is not balanced, and texts that try to be markup. -/
example : (do
    let es ← Jotdown.events (b! "a`</p>`{=html} <b> `<i>`{=x}\n")
    let out ← (Renderer.new none).output es
    let out' ← (Renderer.new none).output (es.map dim)
    pure (out, out', ((tags out).bind (openAfterAll [])) == some [], ((tags out').bind (openAfterAll [])) == some [])) =
    .ok (b! "<p>a</p> &lt;b&gt; </p>", b! "<p>a &lt;b&gt; </p>", false, true) := by decide +kernel

end Jotdown.Html
