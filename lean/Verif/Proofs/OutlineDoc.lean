import Verif.Proofs.Outline
import Verif.Props.Doc
/-! # The first pass, in terms of the events of the document -/
namespace Jotdown
open Jotdown
variable {src : Bytes} {pre : PrePass}

theorem collectAttrs_in {sps : List Span} {a : Attr.Attributes} (h : collectAttrs src sps = .ok a) : a = attrsIn src sps := by
  induction sps generalizing a with
  | nil => cases h; rfl
  | cons sp sps ih =>
    unfold collectAttrs at h
    obtain ⟨s, h1, h⟩ := bind_ok h
    obtain ⟨r, h2, h⟩ := bind_ok h
    cases r with
    | error e => cases h
    | ok b =>
      obtain ⟨rest, h3, h⟩ := bind_ok h
      cases h
      have h4 := Block.strSlice_val h1
      have : attrsAt src sp = b := by
        unfold attrsAt textAt
        rw [← h4, h2]
      rw [attrsIn, List.map_cons, List.flatten_cons, this, ih h3, attrsIn]

theorem idAttribute_eq (a : Attr.Attributes) : idAttribute a = (Attr.getValue a (b! "id")).map Attr.display := by
  have h : ∀ e : Attr.Elem, (e.1 == .id || e.1 == .pair (b! "id")) = (e.1.key == some (b! "id")) := by
    rintro ⟨k, v⟩
    cases k with
    | cls => simp only [Attr.AttrKind.key]; rfl
    | id => simp only [Attr.AttrKind.key]; rfl
    | pair k =>
      show ((Attr.AttrKind.pair k == .id) || (Attr.AttrKind.pair k == .pair (b! "id"))) = (some k == some (b! "id"))
      have h1 : (Attr.AttrKind.pair k == .id) = false := by simp
      rw [h1, Bool.false_or, Bool.eq_iff_iff]
      simp
    | comment => simp only [Attr.AttrKind.key]; rfl
  unfold idAttribute Attr.getValue
  rw [if_neg (by decide), Option.map_map]
  congr 1
  congr 1
  funext e
  exact h e

theorem takeInlines_inline {inl : List Block.Event} (h : ∀ i ∈ inl, i.kind = .inline) {x : Block.Event} (hx : x.kind ≠ .inline) (K : List Block.Event) :
    takeInlines (inl ++ x :: K) = (inl.map (·.span), K) := by
  induction inl with
  | nil => simp [takeInlines, hx]
  | cons e inl ih =>
    have := h e (by simp)
    simp [takeInlines, this, ih (fun i hi => h i (by simp [hi]))]

theorem loop_inline {inl : List Block.Event} (h : ∀ i ∈ inl, i.kind = .inline) {x : Block.Event} {l : Block.Leaf} (hx : x.kind = .exit (.leaf l)) (K : List Block.Event) (s : PreState) :
    s.loop src (inl ++ x :: K) = { s with attrPrev := [] }.loop src K := by
  induction inl generalizing s with
  | nil =>
    rw [List.nil_append, PreState.loop]
    simp only [hx]
  | cons e inl ih =>
    have h1 := h e (by simp)
    rw [List.cons_append, PreState.loop]
    simp only [h1]
    rw [ih (fun i hi => h i (by simp [hi]))]

/-- What happens in the events of a raw leaf. -/
theorem walk_raw (ls : List Span) (given : Attr.Attributes) (K : List Event) :
    headingsFrom false given ((rawLines src ls).map (·.1) ++ K) = headingsFrom false given K ∧
    definitionsFrom false given ((rawLines src ls).map (·.1) ++ K) = definitionsFrom false given K := by
  induction ls with
  | nil => exact ⟨rfl, rfl⟩
  | cons l ls ih =>
    unfold rawLines at ih ⊢
    rw [List.filter_cons]
    split
    · exact ih
    · exact ih

theorem urlOf_raw (ls : List Span) (label : Bytes) (K : List Event) :
    urlOf ((rawLines src ls).map (·.1) ++ .end (.linkDefinition label) :: K) = (ls.map (fun l => trim (textAt src l))).flatten := by
  induction ls with
  | nil => rfl
  | cons l ls ih =>
    unfold rawLines at ih ⊢
    rw [List.filter_cons]
    split
    · simp only [List.map_cons, List.cons_append]
      rw [List.flatten_cons, ← ih]
      rfl
    · rename_i hl
      have : l.start = l.stop := by simpa using hl
      rw [ih, List.map_cons, List.flatten_cons]
      simp [textAt, this, trim, trimStart, trimEnd]

theorem collectUrl_in {ls : List Span} {url : Bytes} (h : collectUrl src ls = .ok url) : url = (ls.map (fun l => trim (textAt src l))).flatten := by
  induction ls generalizing url with
  | nil => cases h; rfl
  | cons sp sps ih =>
    unfold collectUrl at h
    obtain ⟨s, h1, h⟩ := bind_ok h
    obtain ⟨rest, h2, h⟩ := bind_ok h
    cases h
    rw [Block.strSlice_val h1, ih h2]
    rfl

/-- The attributes of the first pass are those that the events show. -/
def Synced (src : Bytes) (s : PreState) (given : Attr.Attributes) (pend : List Span) (blocks : List Block.Event) : Prop :=
  attrsIn src s.attrPrev = given ++ attrsIn src pend ∨ staleNext blocks = true

/-- The result of the first pass for the rest of the document. -/
def OutlineOk (s s' : PreState) (given : Attr.Attributes) (evs : List Event) : Prop :=
  (∃ hs, s'.headings = s.headings ++ hs ∧ hs.map (·.idOverride) = (headingsFrom false given evs).map (fun i => idAttribute i.attrs)) ∧
  s'.linkDefinitions = (definitionsFrom false given evs).reverse ++ s.linkDefinitions

theorem outline_skip {s s' : PreState} {given given' : Attr.Attributes} {e : Event} {evs : List Event}
    (hh : headingsFrom false given (e :: evs) = headingsFrom false given' evs) (hd : definitionsFrom false given (e :: evs) = definitionsFrom false given' evs)
    (h : OutlineOk s s' given' evs) : OutlineOk s s' given (e :: evs) := by
  unfold OutlineOk
  rw [hh, hd]
  exact h

theorem walk_flush (pend : List Span) (given : Attr.Attributes) (K : List Event) :
    headingsFrom false given ((flush src pend).map (·.1) ++ K) = headingsFrom false (given ++ attrsIn src pend) K ∧
    definitionsFrom false given ((flush src pend).map (·.1) ++ K) = definitionsFrom false (given ++ attrsIn src pend) K := by
  cases pend with
  | nil => simp [flush, attrsIn]
  | cons sp sps => exact ⟨rfl, rfl⟩

theorem outline_flush {s s' : PreState} {given : Attr.Attributes} (pend : List Span) {K : List Event}
    (h : OutlineOk s s' (given ++ attrsIn src pend) K) : OutlineOk s s' given ((flush src pend).map (·.1) ++ K) := by
  unfold OutlineOk
  rw [(walk_flush pend given K).1, (walk_flush pend given K).2]
  exact h

/-- Entering a container. -/
theorem walk_enter (ids : Nat → Bytes) (head : Bool) (c : Block.Container) (given a : Attr.Attributes) (K : List Event) :
    headingsFrom false given (.start (nodeName ids head (.container c)) a :: K) = headingsFrom false (given ++ a) K ∧
    definitionsFrom false given (.start (nodeName ids head (.container c)) a :: K) = definitionsFrom false (given ++ a) K := by
  cases c with
  | list ty t => cases ty <;> exact ⟨rfl, rfl⟩
  | listItem k => cases k <;> exact ⟨rfl, rfl⟩
  | _ => exact ⟨rfl, rfl⟩

/-- Leaving a container. -/
theorem walk_exit (ids : Nat → Bytes) (head : Bool) (c : Block.Container) (given : Attr.Attributes) (K : List Event) :
    headingsFrom false given (.end (nodeName ids head (.container c)) :: K) = headingsFrom false (match c with | .section _ => given | _ => []) K ∧
    definitionsFrom false given (.end (nodeName ids head (.container c)) :: K) = definitionsFrom false (match c with | .section _ => given | _ => []) K := by
  cases c with
  | list ty t => cases ty <;> exact ⟨rfl, rfl⟩
  | listItem k => cases k <;> exact ⟨rfl, rfl⟩
  | _ => exact ⟨rfl, rfl⟩

theorem hd_start (g a : Attr.Attributes) (lv : Nat) (hs : Bool) (id : Bytes) (es : List Event) :
    headingsFrom false g (.start (.heading lv hs id) a :: es) = ⟨id, g ++ a, plainContent (es.takeWhile (fun e => !isHeadingEnd e))⟩ :: headingsFrom true (g ++ a) es := rfl

theorem df_start (g a : Attr.Attributes) (lv : Nat) (hs : Bool) (id : Bytes) (es : List Event) :
    definitionsFrom false g (.start (.heading lv hs id) a :: es) = definitionsFrom true (g ++ a) es := rfl

theorem hd_end (g : Attr.Attributes) (lv : Nat) (hs : Bool) (id : Bytes) (es : List Event) : headingsFrom true g (.end (.heading lv hs id) :: es) = headingsFrom false g es := rfl

theorem df_end (g : Attr.Attributes) (lv : Nat) (hs : Bool) (id : Bytes) (es : List Event) : definitionsFrom true g (.end (.heading lv hs id) :: es) = definitionsFrom false g es := rfl

theorem hd_def (g a : Attr.Attributes) (l : Bytes) (es : List Event) : headingsFrom false g (.start (.linkDefinition l) a :: es) = headingsFrom false (g ++ a) es := rfl

theorem df_def (g a : Attr.Attributes) (l : Bytes) (es : List Event) : definitionsFrom false g (.start (.linkDefinition l) a :: es) = (l, urlOf es, g ++ a) :: definitionsFrom false (g ++ a) es := rfl

theorem hd_defEnd (g : Attr.Attributes) (l : Bytes) (es : List Event) : headingsFrom false g (.end (.linkDefinition l) :: es) = headingsFrom false g es := rfl

theorem df_defEnd (g : Attr.Attributes) (l : Bytes) (es : List Event) : definitionsFrom false g (.end (.linkDefinition l) :: es) = definitionsFrom false g es := rfl

/-- Leaves other than headings and link definitions. -/
def plainLeaf : Block.Leaf → Bool
  | .heading .. | .linkDefinition _ => false
  | _ => true

theorem walk_leaf {ids : Nat → Bytes} {head : Bool} {l : Block.Leaf} (hl : plainLeaf l = true) (given a : Attr.Attributes) (K : List Event) :
    (headingsFrom false given (.start (nodeName ids head (.leaf l)) a :: K) = headingsFrom false (given ++ a) K ∧
    definitionsFrom false given (.start (nodeName ids head (.leaf l)) a :: K) = definitionsFrom false (given ++ a) K) ∧
    headingsFrom false given (.end (nodeName ids head (.leaf l)) :: K) = headingsFrom false [] K ∧
    definitionsFrom false given (.end (nodeName ids head (.leaf l)) :: K) = definitionsFrom false [] K := by
  cases l with
  | heading => cases hl
  | linkDefinition => cases hl
  | codeBlock lang =>
    simp only [nodeName]
    split <;> exact ⟨⟨rfl, rfl⟩, rfl, rfl⟩
  | _ => exact ⟨⟨rfl, rfl⟩, rfl, rfl⟩

theorem Synced.mono {s : PreState} {given : Attr.Attributes} {pend : List Span} {e : Block.Event} {es : List Block.Event} (h : Synced src s given pend (e :: es))
    (h1 : e.kind ≠ .stale) (h2 : e.kind ≠ .enter (.leaf .descriptionTerm)) : attrsIn src s.attrPrev = given ++ attrsIn src pend := by
  rcases h with h | h
  · exact h
  · simp [staleNext, nextIs, h1, h2] at h

theorem outline_loop {head : Bool} {pend : List Span} {blocks : List Block.Event} {evs : List (Event × Span)} (h : DocEvents src pre head pend blocks evs) :
    ∀ {s s' : PreState} {given : Attr.Attributes}, staleOk blocks = true → Synced src s given pend blocks → s.loop src blocks = .ok s' →
      OutlineOk s s' given (evs.map (·.1)) := by
  induction h with
  | nil =>
    intro s s' given _ _ h
    rw [PreState.loop] at h
    cases h
    exact ⟨⟨[], by simp, rfl⟩, rfl⟩
  | @stale hd pend e es evs hk _ ih =>
    intro s s' given hst hs h
    rw [PreState.loop] at h
    simp only [hk] at h
    simp only [staleOk, hk, bne_self_eq_false, Bool.false_or, Bool.and_eq_true] at hst
    exact ih (s := { s with attrPrev := [] }) hst.2 (.inr hst.1) h
  | @attributes hd pend e es evs hk _ ih =>
    intro s s' given hst hs h
    have hs := hs.mono (by simp [hk]) (by simp [hk])
    rw [PreState.loop] at h
    simp only [hk] at h
    rw [staleOk_cons (by simp [hk])] at hst
    refine ih (s := { s with attrPrev := s.attrPrev ++ [e.span] }) hst (.inl ?_) h
    simp only [attrsIn_append, hs, List.append_assoc]
  | @blankline hd pend e es evs hk _ ih =>
    intro s s' given hst hs h
    rw [PreState.loop] at h
    simp only [hk] at h
    rw [staleOk_cons (by simp [hk])] at hst
    rw [List.map_append]
    exact outline_flush pend (outline_skip (given' := []) rfl rfl (ih (s := { s with attrPrev := [] }) hst (.inl rfl) h))
  | @thematicBreak hd pend e es evs hk _ ih =>
    intro s s' given hst hs h
    rw [PreState.loop] at h
    simp only [hk] at h
    rw [staleOk_cons (by simp [hk])] at hst
    exact outline_skip (given' := []) rfl rfl (ih (s := { s with attrPrev := [] }) hst (.inl rfl) h)
  | @enter hd pend e c es evs hk _ ih =>
    intro s s' given hst hs h
    have hs := hs.mono (by simp [hk]) (by simp [hk])
    rw [PreState.loop] at h
    simp only [hk] at h
    rw [staleOk_cons (by simp [hk])] at hst
    exact outline_skip (walk_enter _ _ _ _ _ _).1 (walk_enter _ _ _ _ _ _).2 (ih hst (.inl (by simpa [attrsIn] using hs)) h)
  | @exit hd pend e c es evs hk _ ih =>
    intro s s' given hst hs h
    have hs := hs.mono (by simp [hk]) (by simp [hk])
    rw [staleOk_cons (by simp [hk])] at hst
    rw [List.map_append]
    refine outline_flush pend (outline_skip (walk_exit _ _ _ _ _).1 (walk_exit _ _ _ _ _).2 ?_)
    rw [PreState.loop] at h
    simp only [hk] at h
    cases c
    case «section» => exact ih hst (.inl (by simpa [attrsIn] using hs)) h
    all_goals exact ih (s := { s with attrPrev := [] }) hst (.inl rfl) h
  | @leaf hd pend e l inl x es cs evs hk hi hx hc _ ih =>
    intro s s' given hst hs h
    have hxk : x.kind ≠ .inline := by rw [hx]; simp
    have hst : staleOk es = true := by
      rw [List.cons_append, staleOk_cons (by simp [hk])] at hst
      have : ∀ (inl : List Block.Event) (hi : ∀ i ∈ inl, i.kind = .inline), staleOk (inl ++ x :: es) = staleOk es := by
        intro inl
        induction inl with
        | nil => intro _; rw [List.nil_append, staleOk_cons (by simp [hx])]
        | cons i inl ihl => intro hi; rw [List.cons_append, staleOk_cons (by simp [hi i (by simp)]), ihl (fun i h => hi i (by simp [h]))]
      rw [this inl hi] at hst
      exact hst
    simp only [List.map_cons, List.map_append]
    rw [List.cons_append, PreState.loop] at h
    simp only [hk] at h
    by_cases hl : plainLeaf l = true
    · have h' : { s with attrPrev := [] }.loop src es = .ok s' := by
        rw [← loop_inline hi hx]
        cases l <;> first | exact h | cases hl
      refine outline_skip (walk_leaf hl _ _ _).1.1 (walk_leaf hl _ _ _).1.2 ?_
      obtain ⟨given', w1, w2⟩ := (walk_inline (content_inline hc) (given ++ attrsIn src pend) (.end (nodeName (idAt pre) hd (.leaf l)) :: evs.map (·.1))).1
      have := ih (s := { s with attrPrev := [] }) (given := []) hst (.inl (by rfl)) h'
      unfold OutlineOk at this ⊢
      rw [w1, w2, (walk_leaf hl _ [] _).2.1, (walk_leaf hl _ [] _).2.2]
      exact this
    · cases l with
      | heading level hsec pos =>
        have hs := hs.mono (by simp [hk]) (by simp [hk])
        simp only [takeInlines_inline hi hxk] at h
        obtain ⟨s1, h1, h⟩ := bind_ok h
        have hc' := content_inline hc
        unfold PreState.heading at h1
        obtain ⟨attrs, h2, h1⟩ := bind_ok h1
        obtain ⟨ip, h3, h1⟩ := bind_ok h1
        obtain ⟨⟨ip', ht⟩, h4, h1⟩ := bind_ok h1
        obtain ⟨id, h5, h1⟩ := bind_ok h1
        simp only [Pure.pure, Except.pure, Except.ok.injEq] at h1
        have hattr := collectAttrs_in h2
        rw [hs] at hattr
        have hrec := ih (s := s1) (given := given ++ attrsIn src pend) hst (.inl (by subst h1; simpa [attrsIn] using hs)) h
        obtain ⟨⟨hs', g1, g2⟩, g3⟩ := hrec
        obtain ⟨-, w1, w2, w3⟩ := walk_inline hc' (given ++ attrsIn src pend) (.end (nodeName (idAt pre) hd (.leaf (.heading level hsec pos))) :: evs.map (·.1))
        simp only [nodeName] at w1 w2 ⊢
        refine ⟨⟨⟨e.span.start % 4294967296, id, ht.text, (Attr.getValue attrs (b! "id")).map Attr.display⟩ :: hs', ?_, ?_⟩, ?_⟩
        · rw [g1, ← h1]; simp
        · rw [hd_start, w1, hd_end, List.map_cons, List.map_cons, g2, idAttribute_eq, hattr]
        · rw [g3, df_start, w2, df_end, ← h1]
      | linkDefinition label =>
        have hs := hs.mono (by simp [hk]) (by simp [hk])
        simp only [takeInlines_inline hi hxk] at h
        obtain ⟨s1, h1, h⟩ := bind_ok h
        cases hc with
        | parsed hr _ => cases hr
        | raw _ =>
        unfold PreState.linkDefinition at h1
        obtain ⟨attrs, h2, h1⟩ := bind_ok h1
        obtain ⟨url, h3, h1⟩ := bind_ok h1
        simp only [Pure.pure, Except.pure, Except.ok.injEq] at h1
        have hattr := collectAttrs_in h2
        rw [hs] at hattr
        have hrec := ih (s := s1) (given := given ++ attrsIn src pend) hst (.inl (by subst h1; simpa [attrsIn] using hs)) h
        obtain ⟨⟨hs', g1, g2⟩, g3⟩ := hrec
        obtain ⟨w1, w2⟩ := walk_raw (src := src) (inl.map (·.span)) (given ++ attrsIn src pend) (.end (nodeName (idAt pre) hd (.leaf (.linkDefinition label))) :: evs.map (·.1))
        simp only [nodeName] at w1 w2 ⊢
        refine ⟨⟨hs', ?_, ?_⟩, ?_⟩
        · rw [g1, ← h1]
        · rw [g2, hd_def, w1, hd_defEnd]
        · rw [g3, df_def, w2, df_defEnd, urlOf_raw, ← collectUrl_in h3, ← h1, hattr]
          simp
      | _ => exact absurd rfl hl

end Jotdown
