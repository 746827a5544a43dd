import Verif.Proofs.HtmlTags
/-! # Rendering well-nested events: one event -/
namespace Jotdown.Html
open Jotdown

/-! ## End tags -/

/-- The renderer after the end of a container: the tightness of a list is dropped. -/
def closeState (r : Renderer) : Container → Renderer
  | .list .. => { r with listTightness := r.listTightness.drop 1 }
  | _ => r

theorem scan_endTag {n : Bytes} (h : ∀ c ∈ n, TagByte c) :
    scan .text (b! "</" ++ n ++ b! ">") = ([47 :: n], .text) := by
  rw [List.append_assoc, scan_append]
  rw [show scan .text (b! "</") = ([], .tag (b! "/")) from rfl]
  rw [scan_append, scan_tag h]
  rfl

/-- An end tag closes the innermost element. -/
theorem endTag_run {n : Bytes} {o : Out} (S : List Bytes) (ho : o.flatten = b! "</" ++ n ++ b! ">")
    (h : ∀ c ∈ n, TagByte c) : Run2 .text (n :: S) o o .text S :=
  Run2.diag (T := [47 :: n]) (by rw [ho]; exact scan_endTag h) (by simp [openAfterAll, openAfter])

theorem closeTag_tagged {r : Renderer} {c : Container} (hc : Tagged c = true)
    (hp : c = .paragraph → r.tight = false ∧ r.footnotes.inEpilogue = false) (S : List Bytes) :
    ∃ o2, r.closeTag c = .ok (closeState r c, some o2) ∧
      Run2 .text (elements r.tight c ++ S) o2 o2 .text S := by
  have lit : ∀ n : Bytes, (∀ c ∈ n, c ≠ c! '>' ∧ c ≠ c! '"' ∧ c ≠ 39) →
      Run2 .text (n :: S) [b! "</" ++ n ++ b! ">"] [b! "</" ++ n ++ b! ">"] .text S :=
    fun n h => endTag_run S (by simp) h
  cases c with
  | list k t =>
    refine ⟨_, rfl, ?_⟩
    cases k
    · exact lit (b! "ul") (by decide)
    · exact lit (b! "ol") (by decide)
    · exact lit (b! "ul") (by decide)
  | heading l h i =>
    refine ⟨_, rfl, ?_⟩
    refine endTag_run S (n := b! "h" ++ decimal l) (by simp) ?_
    intro c hc
    rcases List.mem_append.1 hc with hc | hc
    · simp at hc; subst hc; exact ⟨by decide, by decide, by decide⟩
    · exact (digit_facts c (decimal_digits _ c hc)).2.1
  | paragraph =>
    obtain ⟨h1, h2⟩ := hp rfl
    refine ⟨[b! "</p>"], ?_, ?_⟩
    · have h1' := h1
      simp only [Renderer.tight, decide_eq_false_iff_not] at h1'
      simp [Renderer.closeTag, h1', h2, closeState]
    · simp only [elements, h1]
      exact lit (b! "p") (by decide)
  | tableCell a h =>
    cases h
    · exact ⟨_, rfl, lit (b! "td") (by decide)⟩
    · exact ⟨_, rfl, lit (b! "th") (by decide)⟩
  | codeBlock l =>
    refine ⟨_, rfl, Run2.diag (T := [b! "/code", b! "/pre"]) rfl ?_⟩
    simp [elements, openAfterAll, openAfter]
  | math d =>
    cases d
    · exact ⟨_, rfl, Run2.diag (T := [b! "/span"]) rfl (by simp [elements, openAfterAll, openAfter])⟩
    · exact ⟨_, rfl, Run2.diag (T := [b! "/span"]) rfl (by simp [elements, openAfterAll, openAfter])⟩
  | blockquote => exact ⟨_, rfl, lit (b! "blockquote") (by decide)⟩
  | listItem => exact ⟨_, rfl, lit (b! "li") (by decide)⟩
  | taskListItem => exact ⟨_, rfl, lit (b! "li") (by decide)⟩
  | descriptionList => exact ⟨_, rfl, lit (b! "dl") (by decide)⟩
  | descriptionDetails => exact ⟨_, rfl, lit (b! "dd") (by decide)⟩
  | table => exact ⟨_, rfl, lit (b! "table") (by decide)⟩
  | tableRow => exact ⟨_, rfl, lit (b! "tr") (by decide)⟩
  | «section» => exact ⟨_, rfl, lit (b! "section") (by decide)⟩
  | div => exact ⟨_, rfl, lit (b! "div") (by decide)⟩
  | caption => exact ⟨_, rfl, lit (b! "caption") (by decide)⟩
  | descriptionTerm => exact ⟨_, rfl, lit (b! "dt") (by decide)⟩
  | span => exact ⟨_, rfl, lit (b! "span") (by decide)⟩
  | link => exact ⟨_, rfl, lit (b! "a") (by decide)⟩
  | verbatim => exact ⟨_, rfl, lit (b! "code") (by decide)⟩
  | subscript => exact ⟨_, rfl, lit (b! "sub") (by decide)⟩
  | superscript => exact ⟨_, rfl, lit (b! "sup") (by decide)⟩
  | insert => exact ⟨_, rfl, lit (b! "ins") (by decide)⟩
  | delete => exact ⟨_, rfl, lit (b! "del") (by decide)⟩
  | strong => exact ⟨_, rfl, lit (b! "strong") (by decide)⟩
  | emphasis => exact ⟨_, rfl, lit (b! "em") (by decide)⟩
  | mark => exact ⟨_, rfl, lit (b! "mark") (by decide)⟩
  | _ => simp [Tagged] at hc

/-! ## Stacks of containers -/

/-- A link definition. -/
def isDef : Container → Bool
  | .linkDefinition _ => true
  | _ => false

/-- Number of images on a stack. -/
def images : List Container → Nat
  | [] => 0
  | c :: st => (if isImage c then 1 else 0) + images st

/-- Tightness of the lists on a stack. -/
def tightness : List Container → List Bool
  | [] => []
  | .list _ t :: st => t :: tightness st
  | _ :: st => tightness st

/-- Inside a link definition. -/
def dead (st : List Container) : Bool := st.any isDef

/-- The stack without what is inside a link definition. -/
def live : List Container → List Container
  | [] => []
  | c :: st => if dead (c :: st) then live st else c :: st

/-- The elements open for a stack. -/
def htmlStack : List Container → List Bytes
  | [] => []
  | c :: st => (if 0 < images st then [] else elements (decide ((tightness st).head? = some true)) c) ++ htmlStack st

/-- The stack respects the placement of blocks. -/
def Placed : List Container → Prop
  | [] => True
  | [c] => holdsBlocks c = true
  | c :: p :: st => (isInline c = true ∨ holdsBlocks p = true) ∧ Placed (p :: st)

theorem holds_facts {c : Container} (h : holdsBlocks c = true) :
    isInline c = false ∧ isImage c = false ∧ isDef c = false := by
  cases c <;> first | exact ⟨rfl, rfl, rfl⟩ | simp [holdsBlocks] at h

theorem inline_facts {c : Container} (h : isInline c = true) :
    isBlock c = false ∧ isBlockContainer c = false ∧ isDef c = false ∧ (∀ st, tightness (c :: st) = tightness st) ∧
    c ≠ .paragraph ∧ ∀ l, c ≠ .footnote l := by
  cases c <;> first | exact ⟨rfl, rfl, rfl, fun _ => rfl, by simp, by simp⟩ | simp [isInline] at h

theorem placed_all {st : List Container} (h : Placed st) :
    ∀ c, st.head? = some c → holdsBlocks c = true → ∀ x ∈ st, holdsBlocks x = true := by
  induction st with
  | nil => simp
  | cons d st ih =>
    intro c hc hb x hx
    simp only [List.head?_cons, Option.some.injEq] at hc
    subst hc
    rcases List.mem_cons.1 hx with rfl | hx
    · exact hb
    · cases st with
      | nil => simp at hx
      | cons p st =>
        obtain ⟨h1, h2⟩ := h
        rcases h1 with h1 | h1
        · rw [(holds_facts hb).1] at h1; simp at h1
        · exact ih h2 p rfl h1 x hx

theorem placed_block {c : Container} {st : List Container} (h : Placed (c :: st))
    (hc : isInline c = false) : ∀ x ∈ st, holdsBlocks x = true := by
  cases st with
  | nil => simp
  | cons p st =>
    obtain ⟨h1, h2⟩ := h
    rcases h1 with h1 | h1
    · rw [hc] at h1; simp at h1
    · exact placed_all h2 p rfl h1

theorem all_images {st : List Container} (h : ∀ x ∈ st, holdsBlocks x = true) : images st = 0 := by
  induction st with
  | nil => rfl
  | cons c st ih =>
    simp [images, (holds_facts (h c (List.mem_cons_self ..))).2.1, ih (fun x hx => h x (List.mem_cons_of_mem _ hx))]

theorem all_dead {st : List Container} (h : ∀ x ∈ st, holdsBlocks x = true) : dead st = false := by
  unfold dead
  rw [List.any_eq_false]
  intro x hx; rw [(holds_facts (h x hx)).2.2]; simp

theorem Placed.tail {c : Container} {st : List Container} (h : Placed (c :: st)) : Placed st := by
  cases st with
  | nil => trivial
  | cons p st => exact h.2

theorem live_not_dead {st : List Container} (h : dead st = false) : live st = st := by
  cases st with
  | nil => rfl
  | cons c st => unfold live; rw [h]; rfl

theorem live_dead {c : Container} {st : List Container} (h : dead (c :: st) = true) :
    live (c :: st) = live st := by
  conv => lhs; unfold live
  rw [h]; rfl

/-- Scanner mode for a stack: inside an image the scanner is in the alt attribute. -/
def ModeOk (st : List Container) (m : Mode) : Prop :=
  if images st = 0 then m = .text else ∃ j, m = .dquote (b! "img " ++ j)

/-- Relation between the stack of open containers, the renderer and the scanner mode. -/
structure Rel (st : List Container) (r : Renderer) (m : Mode) : Prop where
  opn : r.footnotes.open_ = []
  ind : SafeIndent r.indent
  raw : r.raw ≠ .html
  img : r.imgAltText = images (live st)
  tig : r.listTightness = tightness (live st)
  ign : r.ignore = dead st
  mode : ModeOk (live st) m
  placed : Placed st

theorem Rel.mono {st : List Container} {r r' : Renderer} {m : Mode} (h : Rel st r m)
    (h1 : r'.footnotes.open_ = []) (h2 : r'.indent = r.indent) (h3 : r'.raw = r.raw)
    (h4 : r'.imgAltText = r.imgAltText) (h5 : r'.listTightness = r.listTightness)
    (h6 : r'.ignore = r.ignore) : Rel st r' m :=
  ⟨h1, by rw [h2]; exact h.ind, by rw [h3]; exact h.raw, by rw [h4]; exact h.img,
   by rw [h5]; exact h.tig, by rw [h6]; exact h.ign, h.mode, h.placed⟩

theorem Rel.quietMode {st : List Container} {r : Renderer} {m : Mode} (h : Rel st r m) :
    m = .text ∨ ∃ a, m = .dquote a := by
  have := h.mode
  unfold ModeOk at this
  split at this
  · exact .inl this
  · obtain ⟨j, hj⟩ := this; exact .inr ⟨_, hj⟩

/-- One event without the recursion for the end of the document. -/
def Renderer.step (r : Renderer) (e : Event) : R (Renderer × Out) :=
  match r.filter e with
  | some q => .ok (q, [])
  | none => r.core e

theorem event_step (fuel : Nat) (r : Renderer) (e : Event) (h : e ≠ .end .document) :
    Renderer.event (fuel + 1) r e = r.step e := by
  unfold Renderer.event Renderer.step
  cases r.filter e with
  | some q => rfl
  | none => simp only [if_neg h]

/-- The paragraph end that is left open for the backlink. -/
def pending (r : Renderer) (e : Event) : List Bytes :=
  if e = .end .paragraph ∧ r.footnotes.inEpilogue = true ∧ r.tight = false then [b! "p"] else []

theorem pending_none {r : Renderer} {e : Event} (h : e ≠ .end .paragraph) : pending r e = [] := by
  unfold pending; rw [if_neg (fun h' => h h'.1)]

/-- What is shown of one event. -/
def StepOk (st st' : List Container) (r : Renderer) (e : Event) (m : Mode) : Prop :=
  ∃ q o m', r.step e = .ok (q, o) ∧ Rel st' q m' ∧
    ∀ rest, Run2 m (htmlStack (live st) ++ rest) o o m' (pending r e ++ htmlStack (live st') ++ rest)

theorem StepOk.same {st st' : List Container} {r q : Renderer} {e : Event} {m : Mode}
    (h1 : r.step e = .ok (q, [])) (h2 : Rel st' q m) (h3 : pending r e = [])
    (h4 : htmlStack (live st') = htmlStack (live st)) : StepOk st st' r e m := by
  refine ⟨q, [], m, h1, h2, fun rest => ?_⟩
  rw [h3, h4]; exact Run2.nil _ _

theorem StepOk.plain {st : List Container} {r q : Renderer} {e : Event} {m : Mode} {o : Out}
    (h1 : r.step e = .ok (q, o)) (h2 : Rel st q m) (h3 : pending r e = [])
    (h4 : Quiet m o.flatten) : StepOk st st r e m := by
  refine ⟨q, o, m, h1, h2, fun rest => ?_⟩
  rw [h3]; exact Run2.quiet h4 h4

/-- Inside a link definition nothing is written. -/
theorem step_dead {st st' : List Container} {r : Renderer} {e : Event} {m : Mode} (h : Rel st r m)
    (hd : dead st = true) (hn : NoFoot e) (hne : nest1 st e = some st') : StepOk st st' r e m := by
  have hhead : ∀ c, st.head? = some c → holdsBlocks c = true → False := by
    intro c hc hb
    have := all_dead (placed_all h.placed c hc hb)
    rw [this] at hd; simp at hd
  have hhb : (st.head?.map holdsBlocks).getD false = false := by
    cases hh : st.head? with
    | none => rfl
    | some c =>
      cases hb : holdsBlocks c
      · simp [hb]
      · exact (hhead c hh hb).elim
  have hpend : e = .end .paragraph → False := by
    rintro rfl
    cases st with
    | nil => simp [nest1] at hne
    | cons d st =>
      simp only [nest1] at hne
      split at hne
      · rename_i hd'
        obtain ⟨rfl, _⟩ := hd'
        have := all_dead (placed_block h.placed rfl)
        simp only [dead, List.any_cons, isDef, Bool.false_or] at hd this
        rw [this] at hd; simp at hd
      · simp at hne
  have hpn : pending r e = [] := pending_none hpend
  rcases filter_cases r e with ⟨l, a, rfl, _⟩ | ⟨l, l', evs, rest, rfl, _, _⟩ | ⟨l', evs, rest, _, ho, _⟩ | ⟨ho, _, hf⟩
  · exact absurd rfl (hn.1 _ _)
  · exact absurd rfl (hn.2 _)
  · rw [h.opn] at ho; simp at ho
  · rcases hf with ⟨l, a, rfl, hf⟩ | ⟨l, rfl, hf⟩ | ⟨h1, h2, hf⟩
    · simp [nest1, hhb, isInline] at hne
    · cases st with
      | nil => simp [nest1] at hne
      | cons d st =>
        simp only [nest1] at hne
        split at hne
        · rename_i hd'
          obtain ⟨rfl, _⟩ := hd'
          simp only [Option.some.injEq] at hne
          subst hne
          have hall := placed_block h.placed rfl
          have hnd := all_dead hall
          have hl : live (Container.linkDefinition l :: st) = live st := live_dead hd
          refine StepOk.same (by unfold Renderer.step; rw [hf]) ?_ hpn (by rw [hl])
          refine ⟨h.opn, h.ind, h.raw, ?_, ?_, ?_, ?_, h.placed.tail⟩
          · have := h.img; rw [hl] at this; exact this
          · have := h.tig; rw [hl] at this; exact this
          · exact hnd.symm
          · have := h.mode; rw [hl] at this; exact this
        · simp at hne
    · rw [h.ign, hd] at hf
      simp only [if_true] at hf
      have hstep : r.step e = .ok (r, []) := by unfold Renderer.step; rw [hf]
      have hkey : dead st' = true ∧ live st' = live st ∧ Placed st' := by
        cases e with
        | start c a =>
          have hcd : c ≠ .document := by rintro rfl; simp [nest1] at hne
          simp only [nest1, hhb, Bool.or_false, if_neg hcd] at hne
          split at hne
          · rename_i hin
            simp only [Option.some.injEq] at hne; subst hne
            have : dead (c :: st) = true := by
              unfold dead at *; rw [List.any_cons, hd]; simp
            refine ⟨this, live_dead this, ?_⟩
            cases st with
            | nil => simp [dead] at hd
            | cons p st => exact ⟨.inl hin, h.placed⟩
          · simp at hne
        | «end» c =>
          cases st with
          | nil => simp [nest1] at hne
          | cons d st =>
            simp only [nest1] at hne
            split at hne
            · rename_i hd'
              obtain ⟨rfl, _⟩ := hd'
              simp only [Option.some.injEq] at hne; subst hne
              have hcd : isDef c = false := by
                cases c <;> first | rfl | exact absurd rfl (h2 _)
              have : dead st = true := by
                unfold dead at *; rw [List.any_cons, hcd] at hd; simpa using hd
              exact ⟨this, (live_dead hd).symm, h.placed.tail⟩
            · simp at hne
        | thematicBreak a => simp [nest1, hhb] at hne
        | _ =>
          simp only [nest1, Option.some.injEq] at hne
          subst hne; exact ⟨hd, rfl, h.placed⟩
      obtain ⟨k1, k2, k3⟩ := hkey
      refine StepOk.same hstep ?_ hpn (by rw [k2])
      exact ⟨h.opn, h.ind, h.raw, by rw [k2]; exact h.img, by rw [k2]; exact h.tig,
        by rw [k1]; rw [h.ign, hd], by rw [k2]; exact h.mode, k3⟩

end Jotdown.Html
