import Verif.Spec.Tags
import Verif.Spec.Events
import Verif.Spec.Safe
import Verif.Proofs.HtmlFuel
import Verif.Props.Escape
import Verif.Props.AttrValues
/-! # The tags written by the renderer -/
namespace Jotdown.Html
open Jotdown

/-! ## The scanner -/

theorem scan_append (m : Mode) (a b : Bytes) :
    scan m (a ++ b) = ((scan m a).1 ++ (scan (scan m a).2 b).1, (scan (scan m a).2 b).2) := by
  induction a generalizing m with
  | nil => rfl
  | cons c a ih => simp only [List.cons_append, scan, ih, List.append_assoc]

theorem scan_text {s : Bytes} (h : c! '<' ∉ s) : scan .text s = ([], .text) := by
  induction s with
  | nil => rfl
  | cons c s ih =>
    simp only [List.mem_cons, not_or] at h
    have : c ≠ c! '<' := fun h' => h.1 h'.symm
    simp [scan, Mode.step, this, ih h.2]

theorem scan_dquote {s a : Bytes} (h : c! '"' ∉ s) : scan (.dquote a) s = ([], .dquote a) := by
  induction s with
  | nil => rfl
  | cons c s ih =>
    simp only [List.mem_cons, not_or] at h
    have : c ≠ c! '"' := fun h' => h.1 h'.symm
    simp [scan, Mode.step, this, ih h.2]

/-- A byte that may occur in a tag outside quotes. -/
def TagByte (c : UInt8) : Prop := c ≠ c! '>' ∧ c ≠ c! '"' ∧ c ≠ 39

theorem scan_tag {s a : Bytes} (h : ∀ c ∈ s, TagByte c) : scan (.tag a) s = ([], .tag (a ++ s)) := by
  induction s generalizing a with
  | nil => simp [scan]
  | cons c s ih =>
    have hc := h c (List.mem_cons_self ..)
    have := ih (a := a ++ [c]) (fun x hx => h x (List.mem_cons_of_mem _ hx))
    simp [scan, Mode.step, hc.1, hc.2.1, hc.2.2, this]

theorem decimal_digits (n : Nat) : ∀ c ∈ decimal n, isDigit c = true := by
  induction n using Nat.strongRecOn with
  | _ n ih =>
    intro c hc
    unfold decimal at hc
    split at hc
    · rename_i h
      simp only [List.mem_singleton] at hc
      subst hc
      revert h
      have : ∀ k : Fin 10, isDigit (48 + k.val.toUInt8) = true := by decide
      intro h; exact this ⟨n, h⟩
    · rename_i h
      rcases List.mem_append.1 hc with hc | hc
      · exact ih _ (by omega) c hc
      · simp only [List.mem_singleton] at hc
        subst hc
        have : ∀ k : Fin 10, isDigit (48 + k.val.toUInt8) = true := by decide
        exact this ⟨n % 10, Nat.mod_lt _ (by decide)⟩

theorem digit_facts : ∀ c, isDigit c = true → c ≠ c! '<' ∧ TagByte c ∧ isWs c = false ∧ c ≠ 47 := by
  unfold TagByte
  apply ofFin; decide +kernel

theorem key_facts : ∀ c : UInt8, (isAlnum c = true ∨ c = c! '_' ∨ c = c! ':' ∨ c = c! '-') → TagByte c := by
  unfold TagByte
  apply ofFin; decide +kernel

theorem writeAttr_noQuote (s : Bytes) : c! '"' ∉ (writeAttr s).flatten := by
  intro h; exact ((C11_attr_escaped s).1 _ h).2.2 rfl

theorem writeText_noLt (s : Bytes) : c! '<' ∉ (writeText s).flatten := by
  intro h; exact ((C11_text_escaped s).1 _ h).1 rfl

theorem parts_noQuote (v : Bytes) : c! '"' ∉ (((Attr.parts v).map writeAttr).flatten).flatten := by
  intro h
  rw [List.mem_flatten] at h
  obtain ⟨x, hx, hc⟩ := h
  rw [List.mem_flatten] at hx
  obtain ⟨y, hy, hx⟩ := hx
  rw [List.mem_map] at hy
  obtain ⟨z, _, rfl⟩ := hy
  exact writeAttr_noQuote z (List.mem_flatten.2 ⟨x, hx, hc⟩)

/-! ## Scanning two outputs at once -/

/-- From mode `m` with open elements `S`, scanning `o` or `o'` gives the same tags, which lead to
mode `m'` with open elements `S'`. -/
def Run2 (m : Mode) (S : List Bytes) (o o' : Out) (m' : Mode) (S' : List Bytes) : Prop :=
  ∃ T, scan m o.flatten = (T, m') ∧ scan m o'.flatten = (T, m') ∧ openAfterAll S T = some S'

theorem openAfterAll_append (S : List Bytes) (a b : List Bytes) :
    openAfterAll S (a ++ b) = (openAfterAll S a).bind (fun S => openAfterAll S b) := by
  induction a generalizing S with
  | nil => rfl
  | cons t a ih =>
    simp only [List.cons_append, openAfterAll]
    split
    · rfl
    · exact ih _

theorem Run2.append {m m1 m2 : Mode} {S S1 S2 : List Bytes} {a a' b b' : Out}
    (h : Run2 m S a a' m1 S1) (h' : Run2 m1 S1 b b' m2 S2) : Run2 m S (a ++ b) (a' ++ b') m2 S2 := by
  obtain ⟨T, h1, h2, h3⟩ := h
  obtain ⟨T', h1', h2', h3'⟩ := h'
  refine ⟨T ++ T', ?_, ?_, ?_⟩
  · rw [List.flatten_append, scan_append, h1, h1']
  · rw [List.flatten_append, scan_append, h2, h2']
  · rw [openAfterAll_append, h3]; exact h3'

theorem Run2.diag {m m' : Mode} {S S' : List Bytes} {o : Out} {T : List Bytes}
    (h : scan m o.flatten = (T, m')) (h' : openAfterAll S T = some S') : Run2 m S o o m' S' :=
  ⟨T, h, h, h'⟩

theorem Run2.nil (m : Mode) (S : List Bytes) : Run2 m S [] [] m S := ⟨[], rfl, rfl, rfl⟩

/-- Nothing that matters in mode `m`. -/
def Quiet (m : Mode) (s : Bytes) : Prop :=
  match m with
  | .text => c! '<' ∉ s
  | .dquote _ => c! '"' ∉ s
  | _ => False

theorem scan_quiet {m : Mode} {s : Bytes} (h : Quiet m s) : scan m s = ([], m) := by
  cases m with
  | text => exact scan_text h
  | dquote a => exact scan_dquote h
  | _ => exact h.elim

theorem Run2.quiet {m : Mode} {S : List Bytes} {o o' : Out} (h : Quiet m o.flatten)
    (h' : Quiet m o'.flatten) : Run2 m S o o' m S := ⟨[], scan_quiet h, scan_quiet h', rfl⟩

theorem Quiet.append {m : Mode} {a b : Bytes} (ha : Quiet m a) (hb : Quiet m b) : Quiet m (a ++ b) := by
  cases m with
  | text => simp only [Quiet, List.mem_append, not_or]; exact ⟨ha, hb⟩
  | dquote s => simp only [Quiet, List.mem_append, not_or]; exact ⟨ha, hb⟩
  | _ => exact ha.elim

theorem Quiet.of {m : Mode} {s : Bytes} (hm : m = .text ∨ ∃ a, m = .dquote a)
    (h1 : c! '<' ∉ s) (h2 : c! '"' ∉ s) : Quiet m s := by
  rcases hm with rfl | ⟨a, rfl⟩
  · exact h1
  · exact h2

/-! ## Start tags -/

/-- The rest of a tag after its name: nothing, or it starts with a space. -/
def Junk (j : Bytes) : Prop := j = [] ∨ ∃ t, j = 32 :: t

theorem Junk.append {a b : Bytes} (ha : Junk a) (hb : Junk b) : Junk (a ++ b) := by
  rcases ha with rfl | ⟨t, rfl⟩
  · exact hb
  · exact .inr ⟨t ++ b, rfl⟩

/-- An element name: no space, no slash at the start. -/
def NameOk (n : Bytes) : Prop := (∀ c ∈ n, isWs c = false) ∧ n.head? ≠ some 47

theorem takeWhile_name {n j : Bytes} (hn : ∀ c ∈ n, isWs c = false) (hj : Junk j) :
    (n ++ j).takeWhile (fun c => !isWs c) = n := by
  induction n with
  | nil =>
    rcases hj with rfl | ⟨t, rfl⟩
    · rfl
    · rfl
  | cons c n ih =>
    simp only [List.cons_append, List.takeWhile_cons, hn c (List.mem_cons_self ..), Bool.not_false, if_true]
    rw [ih (fun x hx => hn x (List.mem_cons_of_mem _ hx))]

theorem openAfter_start {S : List Bytes} {n j : Bytes} (hn : NameOk n) (hj : Junk j) :
    openAfter S (n ++ j) = if voidElements.contains n then some S else some (n :: S) := by
  unfold openAfter
  split
  · rename_i name h
    exfalso
    cases n with
    | nil => rcases hj with rfl | ⟨t, rfl⟩ <;> simp at h
    | cons c n => simp at h; exact hn.2 (by rw [h.1]; rfl)
  · simp only [takeWhile_name hn.1 hj]

/-- A scanner result inside a tag with name `n`. -/
def InTag (n : Bytes) (s : List Bytes × Mode) : Prop := ∃ j, Junk j ∧ s = ([], .tag (n ++ j))

theorem InTag.append {n a b : Bytes} (h : InTag n (scan m a))
    (hb : ∀ acc, ∃ j, Junk j ∧ scan (.tag acc) b = ([], .tag (acc ++ j))) : InTag n (scan m (a ++ b)) := by
  obtain ⟨j, hj, h⟩ := h
  obtain ⟨j', hj', h'⟩ := hb (n ++ j)
  exact ⟨j ++ j', hj.append hj', by rw [scan_append, h, h']; simp⟩

/-- A text that only adds attributes to the current tag. -/
def AddsAttrs (b : Bytes) : Prop := ∀ acc, ∃ j, Junk j ∧ scan (.tag acc) b = ([], .tag (acc ++ j))

theorem AddsAttrs.nil : AddsAttrs [] := fun acc => ⟨[], .inl rfl, by simp [scan]⟩

theorem AddsAttrs.append {a b : Bytes} (ha : AddsAttrs a) (hb : AddsAttrs b) : AddsAttrs (a ++ b) := by
  intro acc
  obtain ⟨j, hj, h⟩ := ha acc
  obtain ⟨j', hj', h'⟩ := hb (acc ++ j)
  exact ⟨j ++ j', hj.append hj', by rw [scan_append, h, h']; simp⟩

theorem AddsAttrs.pair {k v : Bytes} (hk : ∀ c ∈ k, TagByte c) (hv : c! '"' ∉ v) :
    AddsAttrs (b! " " ++ k ++ b! "=\"" ++ v ++ b! "\"") := by
  intro acc
  refine ⟨b! " " ++ k ++ b! "=", .inr ⟨k ++ b! "=", rfl⟩, ?_⟩
  have h1 : scan (.tag acc) (b! " " ++ k) = ([], .tag (acc ++ (b! " " ++ k))) := by
    apply scan_tag
    intro c hc
    rcases List.mem_append.1 hc with hc | hc
    · simp at hc; subst hc; exact ⟨by decide, by decide, by decide⟩
    · exact hk c hc
  rw [List.append_assoc, List.append_assoc, scan_append, h1, scan_append]
  have h2 : ∀ x, scan (.tag x) (b! "=\"") = ([], .dquote (x ++ b! "=")) := fun x => rfl
  rw [h2, scan_append, scan_dquote hv]
  simp [scan, Mode.step]

theorem pairs_safe {a : Attr.Attributes} (h : SafeAttrs a) :
    ∀ p ∈ Attr.uniquePairs a, ∀ c ∈ p.1, TagByte c := by
  intro p hp
  have hm : p.1 ∈ (Attr.uniquePairs a).map (·.1) := List.mem_map.2 ⟨p, hp, rfl⟩
  rw [(Attr.C07_unique_pairs_once a).2] at hm
  unfold Attr.containsKey at hm
  rw [List.any_eq_true] at hm
  obtain ⟨e, he, hk⟩ := hm
  simp only [beq_iff_eq] at hk
  have hs := h e he
  intro c hc
  cases h1 : e.1 with
  | cls => rw [h1] at hk; simp only [Attr.AttrKind.key, Option.some.injEq] at hk; rw [← hk] at hc; revert c; simp only [TagByte]; decide
  | id => rw [h1] at hk; simp only [Attr.AttrKind.key, Option.some.injEq] at hk; rw [← hk] at hc; revert c; simp only [TagByte]; decide
  | comment => rw [h1] at hk; simp [Attr.AttrKind.key] at hk
  | pair k =>
    rw [h1] at hk; simp only [Attr.AttrKind.key, Option.some.injEq] at hk
    rw [← hk] at hc
    exact key_facts c (hs k h1 c hc)

theorem writeClass_noQuote {c : Container} (h : SafeContainer c) (f : Bool) :
    c! '"' ∉ (writeClass c f).flatten := by
  cases c with
  | div cls =>
    simp only [SafeContainer] at h
    unfold writeClass
    simp only [impliedClass]
    intro hm
    split at hm
    · simp at hm
    · cases f <;> simp at hm <;> exact h hm
  | list k t => cases k <;> cases f <;> simp [writeClass, impliedClass]
  | math d => cases d <;> cases f <;> simp [writeClass, impliedClass]
  | _ => simp [writeClass, impliedClass]

theorem attrsOut_adds {c : Container} (h : SafeContainer c) (ps : List (Bytes × Bytes))
    (hp : ∀ p ∈ ps, ∀ c ∈ p.1, TagByte c) : AddsAttrs (attrsOut c ps).flatten := by
  induction ps with
  | nil => exact AddsAttrs.nil
  | cons p ps ih =>
    obtain ⟨a, v⟩ := p
    unfold attrsOut
    rw [List.flatten_append]
    refine AddsAttrs.append ?_ (ih (fun p hp' => hp p (List.mem_cons_of_mem _ hp')))
    have := AddsAttrs.pair (k := a) (v := (((Attr.parts v).map writeAttr).flatten).flatten ++
        (if a = b! "class" then writeClass c true else []).flatten)
      (hp (a, v) (List.mem_cons_self ..)) (by
        rw [List.mem_append, not_or]
        refine ⟨parts_noQuote v, ?_⟩
        split
        · exact writeClass_noQuote h _
        · simp)
    simpa using this

theorem plainAttrs_adds (ps : List (Bytes × Bytes))
    (hp : ∀ p ∈ ps, ∀ c ∈ p.1, TagByte c) : AddsAttrs (plainAttrs ps).flatten := by
  induction ps with
  | nil => exact AddsAttrs.nil
  | cons p ps ih =>
    obtain ⟨a, v⟩ := p
    unfold plainAttrs
    rw [List.flatten_append]
    refine AddsAttrs.append ?_ (ih (fun p hp' => hp p (List.mem_cons_of_mem _ hp')))
    have := AddsAttrs.pair (k := a) (v := (((Attr.parts v).map writeAttr).flatten).flatten)
      (hp (a, v) (List.mem_cons_self ..)) (parts_noQuote v)
    simpa using this

theorem tagByte_id : ∀ c ∈ b! "id", TagByte c := by simp only [TagByte]; decide
theorem tagByte_class : ∀ c ∈ b! "class", TagByte c := by simp only [TagByte]; decide

theorem impliedAttrs_adds {c : Container} (h : SafeContainer c) (keys : List Bytes) :
    AddsAttrs (impliedAttrs c keys).flatten := by
  have hid : ∀ id : Bytes, AddsAttrs (if keys.contains (b! "id") then [] else [b! " id=\""] ++ writeAttr id ++ [b! "\""]).flatten := by
    intro id
    split
    · exact AddsAttrs.nil
    · have := AddsAttrs.pair (k := b! "id") (v := (writeAttr id).flatten) tagByte_id (writeAttr_noQuote id)
      simpa using this
  have hcl : AddsAttrs ([b! " class=\""] ++ writeClass c false ++ [b! "\""]).flatten := by
    have := AddsAttrs.pair (k := b! "class") (v := (writeClass c false).flatten) tagByte_class (writeClass_noQuote h _)
    simpa using this
  unfold impliedAttrs
  split
  · exact hid _
  · exact hid _
  · split
    · exact AddsAttrs.nil
    · exact hcl
  · split
    · exact AddsAttrs.nil
    · exact hcl
  · split
    · exact AddsAttrs.nil
    · exact hcl
  · exact AddsAttrs.nil

/-- The name, attributes and end of a tag. -/
theorem tag_close {m : Mode} {n a : Bytes} (h : InTag n (scan m a)) :
    ∃ j, Junk j ∧ scan m (a ++ b! ">") = ([n ++ j], .text) := by
  obtain ⟨j, hj, h⟩ := h
  exact ⟨j, hj, by rw [scan_append, h]; rfl⟩

/-! ## Layout -/

/-- Contains no markup. -/
def Plain (s : Bytes) : Prop := c! '<' ∉ s ∧ c! '"' ∉ s

theorem Plain.append {a b : Bytes} (ha : Plain a) (hb : Plain b) : Plain (a ++ b) :=
  ⟨by simp only [List.mem_append, not_or]; exact ⟨ha.1, hb.1⟩,
   by simp only [List.mem_append, not_or]; exact ⟨ha.2, hb.2⟩⟩

theorem Plain.nil : Plain [] := ⟨by simp, by simp⟩

theorem indentOut_plain {r : Renderer} (h : SafeIndent r.indent) : Plain r.indentOut.flatten := by
  unfold Renderer.indentOut
  split
  · rename_i i hi
    have hs := h i hi
    split
    · exact Plain.nil
    · refine ⟨?_, ?_⟩ <;> (intro hm; rw [List.mem_flatten] at hm; obtain ⟨x, hx, hm⟩ := hm;
                           rw [List.mem_replicate] at hx; rw [hx.2] at hm)
      · exact hs.1 hm
      · exact hs.2 hm
  · exact Plain.nil

theorem block_plain {r : Renderer} (h : SafeIndent r.indent) (c : Int) : Plain (r.block c).2.flatten := by
  unfold Renderer.block
  split
  · exact Plain.nil
  · simp only [List.flatten_append]
    refine Plain.append ?_ ?_
    · split
      · exact Plain.nil
      · exact ⟨by decide, by decide⟩
    · apply indentOut_plain
      split <;> exact h

theorem startBlock_plain {r : Renderer} (h : SafeIndent r.indent) (c : Container) :
    Plain (r.startBlock c).2.flatten := by
  unfold Renderer.startBlock; split
  · exact block_plain h _
  · exact Plain.nil

theorem closeBlock_plain {r : Renderer} (h : SafeIndent r.indent) (c : Container) :
    Plain (r.closeBlock c).2.flatten := by
  unfold Renderer.closeBlock; split
  · exact block_plain h _
  · exact Plain.nil

/-! ## Elements of a container -/

/-- The elements a container is rendered as, innermost first; `tight`: directly inside a tight
list. -/
def elements (tight : Bool) : Container → List Bytes
  | .blockquote => [b! "blockquote"]
  | .list (.ordered ..) _ => [b! "ol"]
  | .list _ _ => [b! "ul"]
  | .listItem | .taskListItem _ => [b! "li"]
  | .descriptionList => [b! "dl"]
  | .descriptionDetails => [b! "dd"]
  | .table => [b! "table"]
  | .tableRow _ => [b! "tr"]
  | .section _ => [b! "section"]
  | .div _ => [b! "div"]
  | .paragraph => if tight then [] else [b! "p"]
  | .heading level _ _ => [b! "h" ++ decimal level]
  | .tableCell _ false => [b! "td"]
  | .tableCell _ true => [b! "th"]
  | .caption => [b! "caption"]
  | .descriptionTerm => [b! "dt"]
  | .codeBlock _ => [b! "code", b! "pre"]
  | .span | .math _ => [b! "span"]
  | .link .. => [b! "a"]
  | .verbatim => [b! "code"]
  | .subscript => [b! "sub"]
  | .superscript => [b! "sup"]
  | .insert => [b! "ins"]
  | .delete => [b! "del"]
  | .strong => [b! "strong"]
  | .emphasis => [b! "em"]
  | .mark => [b! "mark"]
  | .document | .footnote _ | .linkDefinition _ | .rawBlock _ | .rawInline _ | .image .. => []

/-- Tightness of the innermost list. -/
def Renderer.tight (r : Renderer) : Bool := decide (r.listTightness.head? = some true)

/-- Containers for which the renderer writes a start tag. -/
def Tagged : Container → Bool
  | .document | .footnote _ | .linkDefinition _ | .rawBlock _ | .rawInline _ | .image .. => false
  | _ => true

/-- The renderer after the start of a container: lists record their tightness. -/
def openState (r : Renderer) : Container → Renderer
  | .list _ t => { r with listTightness := t :: r.listTightness }
  | _ => r

/-- A start tag is being written. -/
structure TagName (n : Bytes) (o : Out) : Prop where
  inTag : InTag n (scan .text o.flatten)
  name : NameOk n
  nonvoid : voidElements.contains n = false

theorem TagName.lit {n : Bytes} (h1 : ∀ c ∈ n, TagByte c) (h2 : NameOk n)
    (h3 : voidElements.contains n = false) : TagName n [c! '<' :: n] := by
  refine ⟨⟨[], .inl rfl, ?_⟩, h2, h3⟩
  have := scan_tag (a := []) h1
  simp [scan, Mode.step, this]

theorem listTag_name (k : ListKind) (t : Bool) : ∃ n, elements t (.list k t) = [n] ∧ TagName n (listTag k) := by
  cases k with
  | unordered b => exact ⟨b! "ul", rfl, .lit (by simp only [TagByte]; decide) ⟨by decide, by decide⟩ (by decide)⟩
  | task b => exact ⟨b! "ul", rfl, .lit (by simp only [TagByte]; decide) ⟨by decide, by decide⟩ (by decide)⟩
  | ordered n s start =>
    refine ⟨b! "ol", rfl, ?_, ⟨by decide, by decide⟩, by decide⟩
    unfold listTag
    rw [List.flatten_append, List.flatten_append]
    refine InTag.append (InTag.append ⟨[], .inl rfl, rfl⟩ ?_) ?_
    · split
      · have := AddsAttrs.pair (k := b! "start") (v := decimal start) (by simp only [TagByte]; decide)
          (fun h => (digit_facts _ (decimal_digits _ _ h)).2.1.2.1 rfl)
        intro acc
        simpa using this acc
      · exact AddsAttrs.nil
    · split
      · rename_i ty hty
        have := AddsAttrs.pair (k := b! "type") (v := ty) (by simp only [TagByte]; decide)
          (by cases n <;> simp [listType] at hty <;> subst hty <;> decide)
        intro acc
        simpa using this acc
      · exact AddsAttrs.nil

theorem linkTag_name (dst : Bytes) (ty : LinkType) : TagName (b! "a") (linkTag dst ty) := by
  unfold linkTag
  split
  · exact .lit (by simp only [TagByte]; decide) ⟨by decide, by decide⟩ (by decide)
  · refine ⟨?_, ⟨by decide, by decide⟩, by decide⟩
    have := AddsAttrs.pair (k := b! "href") (v := (if ty = .email then [b! "mailto:"] else []).flatten ++ (writeAttr dst).flatten)
      (by simp only [TagByte]; decide) (by
        rw [List.mem_append, not_or]
        refine ⟨?_, writeAttr_noQuote _⟩
        split <;> decide)
    have h2 := InTag.append (m := .text) (a := b! "<a") (n := b! "a") ⟨[], .inl rfl, rfl⟩ this
    simpa using h2

theorem heading_name (level : Nat) : TagName (b! "h" ++ decimal level) [b! "<h", decimal level] := by
  refine ⟨⟨[], .inl rfl, ?_⟩, ⟨?_, ?_⟩, ?_⟩
  · have := scan_tag (s := decimal level) (a := b! "h") (fun c hc => (digit_facts c (decimal_digits _ c hc)).2.1)
    simp only [List.flatten_cons, List.flatten_nil, List.append_nil]
    rw [scan_append]
    rw [show scan .text (b! "<h") = ([], .tag (b! "h")) from rfl, this]; rfl
  · intro c hc
    rcases List.mem_append.1 hc with hc | hc
    · simp at hc; subst hc; decide
    · exact (digit_facts c (decimal_digits _ c hc)).2.2.1
  · simp
  · have h1 : ∀ x, (voidElements.contains (b! "h" ++ x)) = true → x = b! "r" := by
      intro x hx
      simp [voidElements] at hx
      exact hx
    cases hv : voidElements.contains (b! "h" ++ decimal level)
    · rfl
    · have := h1 _ hv
      have h2 := decimal_digits level (c! 'r') (by rw [this]; simp)
      exact absurd h2 (by decide)

theorem openTag_tagged {r : Renderer} {c : Container} (hc : Tagged c = true)
    (hp : c = .paragraph → r.tight = false) :
    ∃ n o2, r.openTag c = .ok (openState r c, some o2) ∧ TagName n o2 ∧
      ((∀ l, c ≠ .codeBlock l) → elements r.tight c = [n]) ∧ ((∃ l, c = .codeBlock l) → n = b! "pre") := by
  have lit : ∀ n : Bytes, (∀ c ∈ n, c ≠ c! '>' ∧ c ≠ c! '"' ∧ c ≠ 39) ∧ ((∀ c ∈ n, isWs c = false) ∧ n.head? ≠ some 47) ∧
      voidElements.contains n = false → TagName n [c! '<' :: n] := fun n h => .lit h.1 h.2.1 h.2.2
  cases c with
  | list k t =>
    obtain ⟨n, h1, h2⟩ := listTag_name k t
    refine ⟨n, listTag k, rfl, h2, fun _ => ?_, by simp⟩
    cases k <;> exact h1
  | link d t => exact ⟨_, _, rfl, linkTag_name d t, by simp [elements], by simp⟩
  | heading l h i => exact ⟨_, _, rfl, heading_name l, by simp [elements], by simp⟩
  | paragraph =>
    have ht := hp rfl
    refine ⟨b! "p", [b! "<p"], ?_, lit (b! "p") (by decide), by simp [elements, ht], by simp⟩
    simp only [Renderer.tight, decide_eq_false_iff_not] at ht
    simp [Renderer.openTag, ht, openState]
  | tableCell a h =>
    cases h
    · exact ⟨b! "td", _, rfl, lit (b! "td") (by decide), by simp [elements], by simp⟩
    · exact ⟨b! "th", _, rfl, lit (b! "th") (by decide), by simp [elements], by simp⟩
  | blockquote => exact ⟨b! "blockquote", _, rfl, lit (b! "blockquote") (by decide), by simp [elements], by simp⟩
  | listItem => exact ⟨b! "li", _, rfl, lit (b! "li") (by decide), by simp [elements], by simp⟩
  | taskListItem => exact ⟨b! "li", _, rfl, lit (b! "li") (by decide), by simp [elements], by simp⟩
  | descriptionList => exact ⟨b! "dl", _, rfl, lit (b! "dl") (by decide), by simp [elements], by simp⟩
  | descriptionDetails => exact ⟨b! "dd", _, rfl, lit (b! "dd") (by decide), by simp [elements], by simp⟩
  | table => exact ⟨b! "table", _, rfl, lit (b! "table") (by decide), by simp [elements], by simp⟩
  | tableRow => exact ⟨b! "tr", _, rfl, lit (b! "tr") (by decide), by simp [elements], by simp⟩
  | «section» => exact ⟨b! "section", _, rfl, lit (b! "section") (by decide), by simp [elements], by simp⟩
  | div => exact ⟨b! "div", _, rfl, lit (b! "div") (by decide), by simp [elements], by simp⟩
  | caption => exact ⟨b! "caption", _, rfl, lit (b! "caption") (by decide), by simp [elements], by simp⟩
  | descriptionTerm => exact ⟨b! "dt", _, rfl, lit (b! "dt") (by decide), by simp [elements], by simp⟩
  | codeBlock => exact ⟨b! "pre", _, rfl, lit (b! "pre") (by decide), by simp, by simp⟩
  | span => exact ⟨b! "span", _, rfl, lit (b! "span") (by decide), by simp [elements], by simp⟩
  | math => exact ⟨b! "span", _, rfl, lit (b! "span") (by decide), by simp [elements], by simp⟩
  | verbatim => exact ⟨b! "code", _, rfl, lit (b! "code") (by decide), by simp [elements], by simp⟩
  | subscript => exact ⟨b! "sub", _, rfl, lit (b! "sub") (by decide), by simp [elements], by simp⟩
  | superscript => exact ⟨b! "sup", _, rfl, lit (b! "sup") (by decide), by simp [elements], by simp⟩
  | insert => exact ⟨b! "ins", _, rfl, lit (b! "ins") (by decide), by simp [elements], by simp⟩
  | delete => exact ⟨b! "del", _, rfl, lit (b! "del") (by decide), by simp [elements], by simp⟩
  | strong => exact ⟨b! "strong", _, rfl, lit (b! "strong") (by decide), by simp [elements], by simp⟩
  | emphasis => exact ⟨b! "em", _, rfl, lit (b! "em") (by decide), by simp [elements], by simp⟩
  | mark => exact ⟨b! "mark", _, rfl, lit (b! "mark") (by decide), by simp [elements], by simp⟩
  | _ => simp [Tagged] at hc

/-- End of a start tag other than that of a code block or image. -/
theorem closeStart_run {r : Renderer} {c : Container} (hi : SafeIndent r.indent)
    (h1 : ∀ l, c ≠ .codeBlock l) (h2 : isImage c = false) :
    ∃ a q, (r.closeStart c).2.flatten = a ++ b! ">" ++ q ∧ AddsAttrs a ∧
      ∃ T, scan .text q = (T, .text) ∧ ∀ S, openAfterAll S T = some S := by
  have triv : ∃ a q : Bytes, ([b! ">"] : Out).flatten = a ++ b! ">" ++ q ∧ AddsAttrs a ∧
      ∃ T, scan .text q = (T, .text) ∧ ∀ S, openAfterAll S T = some S :=
    ⟨[], [], rfl, AddsAttrs.nil, [], rfl, fun _ => rfl⟩
  cases c with
  | tableCell a h =>
    unfold Renderer.closeStart
    simp only
    split
    · exact triv
    · refine ⟨b! " style=\"" ++ (b! "text-align: " ++ alignName a ++ b! ";") ++ b! "\"", [], by simp, ?_, [], rfl, fun _ => rfl⟩
      have := AddsAttrs.pair (k := b! "style") (v := b! "text-align: " ++ alignName a ++ b! ";")
        (by simp only [TagByte]; decide) (by cases a <;> decide)
      simpa using this
  | codeBlock l => exact absurd rfl (h1 l)
  | image u t => simp [isImage] at h2
  | math d =>
    unfold Renderer.closeStart
    simp only
    cases d
    · exact ⟨[], b! "\\(", rfl, AddsAttrs.nil, [], rfl, fun _ => rfl⟩
    · exact ⟨[], b! "\\[", rfl, AddsAttrs.nil, [], rfl, fun _ => rfl⟩
  | taskListItem ch =>
    unfold Renderer.closeStart
    simp only
    refine ⟨[], (r.block 0).2.flatten ++ (if ch then b! "<input disabled=\"\" type=\"checkbox\" checked=\"\"/>"
       else b! "<input disabled=\"\" type=\"checkbox\"/>"), by simp, AddsAttrs.nil, ?_⟩
    rw [scan_append, scan_text (block_plain hi 0).1]
    cases ch
    · exact ⟨[b! "input disabled= type=/"], rfl, fun S => rfl⟩
    · exact ⟨[b! "input disabled= type= checked=/"], rfl, fun S => rfl⟩
  | _ => exact triv

theorem openState_fields (r : Renderer) (c : Container) :
    (openState r c).raw = r.raw ∧ (openState r c).imgAltText = r.imgAltText ∧
    (openState r c).footnotes = r.footnotes ∧ (openState r c).ignore = r.ignore ∧
    (openState r c).indent = r.indent := by
  cases c <;> exact ⟨rfl, rfl, rfl, rfl, rfl⟩

theorem closeStart_code {r : Renderer} (l : Bytes) :
    ∃ T, scan (.tag acc) (r.closeStart (.codeBlock l)).2.flatten = (acc :: T, .text) ∧
      ∀ S, openAfterAll S T = some (b! "code" :: S) := by
  unfold Renderer.closeStart
  simp only
  split
  · exact ⟨[b! "code"], rfl, fun S => rfl⟩
  · refine ⟨[b! "code class="], ?_, fun S => rfl⟩
    simp only [List.flatten_append, List.flatten_cons, List.flatten_nil, List.append_nil]
    rw [scan_append, scan_append]
    rw [show scan (.tag acc) (b! "><code class=\"language-") = ([acc], .dquote (b! "code class=")) from rfl]
    rw [scan_dquote (writeAttr_noQuote l)]
    rfl

/-- A start tag is written completely. -/
theorem start_tagged {r : Renderer} {c : Container} {a : Attr.Attributes} (hc : Tagged c = true)
    (hi : SafeIndent r.indent) (hs : SafeContainer c) (ha : SafeAttrs a) (h0 : r.imgAltText = 0)
    (hp : c = .paragraph → r.tight = false) (S : List Bytes) :
    ∃ d o, r.start c a = .ok ({ openState r c with depth := d, firstLine := false }, o) ∧
      Run2 .text S o o .text (elements r.tight c ++ S) := by
  obtain ⟨d, hd⟩ := startBlock_fst r c
  obtain ⟨n, o2, ho, hn, hel, hpre⟩ := openTag_tagged (r := (r.startBlock c).1) hc
    (by rw [hd]; exact hp)
  unfold Renderer.start
  have hcond : ¬ ((decide (0 < (r.startBlock c).1.imgAltText) && !isImage c) = true) := by
    rw [hd]; simp [h0]
  rw [if_neg hcond, ho]
  simp only
  obtain ⟨d', hd'⟩ := closeStart_fst (openState (r.startBlock c).1 c) c
  refine ⟨d', (r.startBlock c).2 ++ (openState (r.startBlock c).1 c).tagRest c a o2, ?_, ?_⟩
  · have h1 : openState (r.startBlock c).1 c = { openState r c with depth := d } := by
      rw [hd]; cases c <;> rfl
    have h2 : ({ ((openState (r.startBlock c).1 c).closeStart c).1 with firstLine := false } : Renderer) =
        { openState r c with
          depth := d'
          firstLine := false } := by rw [hd', h1]
    rw [h2]
  · have hlay : Run2 .text S (r.startBlock c).2 (r.startBlock c).2 .text S :=
      Run2.quiet (startBlock_plain hi c).1 (startBlock_plain hi c).1
    refine hlay.append ?_
    have htag : InTag n (scan .text (o2 ++ attrsOut c (Attr.uniquePairs a) ++
        impliedAttrs c ((Attr.uniquePairs a).map (·.1))).flatten) := by
      rw [List.flatten_append, List.flatten_append]
      exact (hn.inTag.append (attrsOut_adds hs _ (pairs_safe ha))).append (impliedAttrs_adds hs _)
    have hos := openState_fields (r.startBlock c).1 c
    by_cases hcode : ∃ l, c = .codeBlock l
    · have hne := hpre hcode
      obtain ⟨l, rfl⟩ := hcode
      subst hne
      obtain ⟨j, hj, ht⟩ := htag
      obtain ⟨T, hT, hS⟩ := closeStart_code (r := openState (r.startBlock (.codeBlock l)).1 (.codeBlock l)) l (acc := b! "pre" ++ j)
      refine Run2.diag (T := (b! "pre" ++ j) :: T) ?_ ?_
      · unfold Renderer.tagRest
        rw [List.flatten_append, scan_append, ht, hT]; rfl
      · simp only [openAfterAll]
        rw [openAfter_start hn.name hj, hn.nonvoid]
        exact hS _
    · have hcode' : ∀ l, c ≠ .codeBlock l := fun l h => hcode ⟨l, h⟩
      have himg : isImage c = false := by cases c <;> first | rfl | simp [Tagged] at hc
      obtain ⟨a', q, hq, ha', T, hT, hS⟩ := closeStart_run (r := openState (r.startBlock c).1 c) (c := c)
        (by rw [hos.2.2.2.2, hd]; exact hi) hcode' himg
      obtain ⟨j, hj, hclose⟩ := tag_close (htag.append ha')
      refine Run2.diag (T := (n ++ j) :: T) ?_ ?_
      · unfold Renderer.tagRest
        rw [List.flatten_append, hq, ← List.append_assoc, ← List.append_assoc, scan_append, hclose, hT]; rfl
      · simp only [openAfterAll]
        rw [openAfter_start hn.name hj, hn.nonvoid]
        have hel' := hel hcode'
        rw [hd] at hel'
        have : r.tight = Renderer.tight { r with depth := d } := rfl
        rw [this, hel']
        exact hS _

end Jotdown.Html
