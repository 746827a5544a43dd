import Verif.Model.Parser
import Verif.Proofs.Base
import Verif.Spec.Block
import Verif.Spec.Ids
/-! # Heading ids, first pass and binary search: helper lemmas -/
namespace Jotdown
open Jotdown

/-! ## Decimal numbers -/

def decVal (s : Bytes) : Nat := s.foldl (fun acc c => 10 * acc + (c.toNat - 48)) 0

theorem decVal_concat (s : Bytes) (c : UInt8) : decVal (s ++ [c]) = 10 * decVal s + (c.toNat - 48) := by
  simp [decVal]

theorem digit_val {n : Nat} (h : n < 10) : (48 + n.toUInt8 : UInt8).toNat - 48 = n := by
  have : ∀ n : Fin 10, (48 + n.val.toUInt8 : UInt8).toNat - 48 = n.val := by decide
  exact this ⟨n, h⟩

theorem decVal_decimal (n : Nat) : decVal (decimal n) = n := by
  induction n using Nat.strongRecOn with
  | ind n ih =>
    rw [decimal]
    split
    · next h => simp [decVal]; omega
    · rw [decVal_concat, ih (n / 10) (by omega), digit_val (Nat.mod_lt _ (by omega))]
      omega

theorem decimal_inj {a b : Nat} (h : decimal a = decimal b) : a = b := by
  rw [← decVal_decimal a, h, decVal_decimal]

theorem nodup_subset_length {α : Type} [BEq α] [LawfulBEq α] {l m : List α} (h : l.Nodup) (hs : ∀ a ∈ l, a ∈ m) : l.length ≤ m.length := by
  induction l generalizing m with
  | nil => simp
  | cons a l ih =>
    have ha := hs a (by simp)
    have h1 := List.length_erase_of_mem ha
    have h2 := List.length_pos_of_mem ha
    rw [List.nodup_cons] at h
    have := ih (m := m.erase a) h.2 (by
      intro b hb
      have : b ≠ a := fun e => h.1 (e ▸ hb)
      exact (List.mem_erase_of_ne this).2 (hs b (by simp [hb])))
    simp only [List.length_cons]
    omega

/-! ## Unique ids -/

theorem uniqueSuffix_sat (used : List Bytes) (base : Bytes) (fuel num : Nat) :
    Sat (fun e => e = .fuel ∧ ∀ i, i < fuel → base ++ decimal (num + i) ∈ used) (uniqueSuffix used base num fuel)
      (fun id => id ∉ used ∧ ∃ k, num ≤ k ∧ id = base ++ decimal k ∧ ∀ i, num ≤ i → i < k → base ++ decimal i ∈ used) := by
  induction fuel generalizing num with
  | zero => unfold uniqueSuffix; exact Sat.error ⟨rfl, fun i hi => absurd hi (Nat.not_lt_zero _)⟩
  | succ fuel ih =>
    unfold uniqueSuffix
    by_cases h : used.contains (base ++ decimal num) = true
    · rw [if_pos h]
      have hm : base ++ decimal num ∈ used := by simpa using h
      have := ih (num + 1)
      refine (this.weaken (B := fun e => e = .fuel ∧ ∀ i, i < fuel + 1 → base ++ decimal (num + i) ∈ used) ?_).mono ?_
      · rintro e ⟨rfl, he⟩
        refine ⟨rfl, fun i hi => ?_⟩
        cases i with
        | zero => exact hm
        | succ i => have := he i (by omega); rwa [show num + 1 + i = num + (i + 1) by omega] at this
      · rintro id ⟨h1, k, h2, h3, h4⟩
        refine ⟨h1, k, by omega, h3, fun i hi hk => ?_⟩
        rcases Nat.eq_or_lt_of_le hi with rfl | hi
        · exact hm
        · exact h4 i hi hk
    · rw [if_neg h]
      exact Sat.ok ⟨by simpa using h, num, Nat.le_refl _, rfl, fun i h1 h2 => by omega⟩

/-- The suffix is found within the bound of the model. -/
theorem uniqueSuffix_ok (used : List Bytes) (base : Bytes) (num : Nat) :
    ∃ k, num ≤ k ∧ uniqueSuffix used base num (used.length + 1) = .ok (base ++ decimal k) ∧ base ++ decimal k ∉ used ∧
      ∀ i, num ≤ i → i < k → base ++ decimal i ∈ used := by
  have h := uniqueSuffix_sat used base (used.length + 1) num
  cases hr : uniqueSuffix used base num (used.length + 1) with
  | ok id =>
    rw [hr] at h
    obtain ⟨h1, k, h2, h3, h4⟩ := h
    exact ⟨k, h2, by rw [h3], h3 ▸ h1, h4⟩
  | error e =>
    rw [hr] at h
    obtain ⟨rfl, h⟩ := h
    exfalso
    have := nodup_subset_length (m := used) (l := (List.range (used.length + 1)).map (fun i => base ++ decimal (num + i))) (by
      refine List.Pairwise.map _ ?_ List.nodup_range
      intro a b hab he
      have := decimal_inj (List.append_cancel_left he)
      omega) (by
      intro a ha
      obtain ⟨i, hi, rfl⟩ := List.mem_map.1 ha
      exact h i (by simpa using hi))
    simp at this
    omega

theorem uniqueId_ok (used : List Bytes) (s : Bytes) : ∃ id, uniqueId used s = .ok id ∧ AutoId used s id := by
  have ht : trimDashes s = noTrailingDash s := rfl
  unfold uniqueId
  simp only [ht]
  by_cases h : (used.contains (noTrailingDash s) || (noTrailingDash s).isEmpty) = true
  · rw [if_pos h]
    obtain ⟨k, h1, h2, h3, h4⟩ := uniqueSuffix_ok used ((if (noTrailingDash s).isEmpty = true then b! "s" else noTrailingDash s) ++ b! "-") 1
    refine ⟨_, h2, Or.inr ⟨?_, _, k, ?_, h1, rfl, h3, h4⟩⟩
    · simpa [or_comm] using h
    · simp only [List.isEmpty_iff]
  · rw [if_neg h]
    simp at h
    exact ⟨_, rfl, Or.inl ⟨h.2, h.1, rfl⟩⟩

theorem AutoId.fresh {used : List Bytes} {s id : Bytes} (h : AutoId used s id) : id ∉ used ∧ id ≠ [] := by
  rcases h with ⟨h1, h2, rfl⟩ | ⟨_, b, k, h1, h2, rfl, h3, _⟩
  · exact ⟨h2, h1⟩
  · exact ⟨h3, by rw [h1]; simp⟩

/-- Each heading has the id for some contents and the ids of the headings before. -/
def SomeIds (used : List Bytes) : List Heading → Prop
  | [] => True
  | h :: hs => (∃ content, h.text = headingText content ∧ AutoId used (slug true content) h.idAuto) ∧
      SomeIds (h.idAuto :: used) hs

theorem AutoIds.some {src : Bytes} {used : List Bytes} {hs : List Heading} {lss : List (List Span)} (h : AutoIds src used hs lss) : SomeIds used hs := by
  induction hs generalizing used lss with
  | nil => trivial
  | cons a hs ih =>
    cases lss with
    | nil => exact h.elim
    | cons ls lss =>
      obtain ⟨⟨c, -, h1⟩, h2⟩ := h
      exact ⟨⟨c, h1⟩, ih h2⟩

theorem AutoIds.append {src : Bytes} {used : List Bytes} {hs : List Heading} {lss : List (List Span)} (h : AutoIds src used hs lss) {k : Heading} {ls : List Span} {content : List (Option UInt8)}
    (h1 : HeadingContent src ls content) (h2 : k.text = headingText content) (h3 : AutoId ((hs.map (·.idAuto)).reverse ++ used) (slug true content) k.idAuto) :
    AutoIds src used (hs ++ [k]) (lss ++ [ls]) := by
  induction hs generalizing used lss with
  | nil =>
    cases lss with
    | nil => exact ⟨⟨content, h1, h2, by simpa using h3⟩, trivial⟩
    | cons _ _ => exact h.elim
  | cons a hs ih =>
    cases lss with
    | nil => exact h.elim
    | cons l lss => exact ⟨h.1, ih h.2 (by simpa using h3)⟩

theorem SomeIds.nodup {used : List Bytes} {hs : List Heading} (h : SomeIds used hs) :
    (hs.map (·.idAuto)).Nodup ∧ ∀ a ∈ hs, a.idAuto ∉ used ∧ a.idAuto ≠ [] := by
  induction hs generalizing used with
  | nil => simp
  | cons a hs ih =>
    obtain ⟨⟨c, -, h1⟩, h2⟩ := h
    obtain ⟨h3, h4⟩ := ih h2
    refine ⟨?_, ?_⟩
    · rw [List.map_cons, List.nodup_cons]
      refine ⟨fun hm => ?_, h3⟩
      obtain ⟨b, hb, he⟩ := List.mem_map.1 hm
      have := (h4 b hb).1
      simp [he] at this
    · intro b hb
      rcases List.mem_cons.1 hb with rfl | hb
      · exact h1.fresh
      · have := h4 b hb
        simp at this
        exact ⟨this.1.2, this.2⟩

theorem SomeIds.append {used : List Bytes} {hs ks : List Heading} :
    SomeIds used (hs ++ ks) ↔ SomeIds used hs ∧ SomeIds ((hs.map (·.idAuto)).reverse ++ used) ks := by
  induction hs generalizing used with
  | nil => simp [SomeIds]
  | cons a hs ih => simp [SomeIds, ih, and_assoc]

/-! ## Text of a heading -/

/-- The state after the contents. -/
def HtOk (h : HeadingText) (content : List (Option UInt8)) : Prop :=
  h.text = headingText content ∧ ∀ rest, h.idAuto ++ slug h.lastWs rest = slug true (content ++ rest)

theorem chars_ok (s : Bytes) (h : HeadingText) :
    (h.chars s).text = h.text ∧ ∀ rest, (h.chars s).idAuto ++ slug (h.chars s).lastWs rest = h.idAuto ++ slug h.lastWs (s.map some ++ rest) := by
  induction s generalizing h with
  | nil => simp [HeadingText.chars]
  | cons c s ih =>
    unfold HeadingText.chars
    by_cases hw : isWs c = true
    · rw [if_pos hw]
      by_cases hl : h.lastWs = true
      · rw [if_pos hl]
        refine ⟨(ih h).1, fun rest => ?_⟩
        rw [(ih h).2 rest]
        simp [slug, hw, hl]
      · rw [if_neg hl]
        refine ⟨(ih _).1, fun rest => ?_⟩
        rw [(ih _).2 rest]
        simp [slug, hw, hl]
    · rw [if_neg hw]
      by_cases hk : (!isPunct c || c == c! '-' || c == c! '_') = true
      · rw [if_pos hk]
        refine ⟨(ih _).1, fun rest => ?_⟩
        rw [(ih _).2 rest]
        have : idChar c = true := by unfold idChar; simp [hw] at hk ⊢; exact hk
        simp [slug, hw, this]
      · rw [if_neg hk]
        refine ⟨(ih _).1, fun rest => ?_⟩
        rw [(ih _).2 rest]
        have : idChar c = false := by unfold idChar; simp [hw] at hk ⊢; simpa [and_assoc] using hk
        simp [slug, hw, this]

theorem event_ht {src : Bytes} {h h' : HeadingText} {e : Inline.Event} {content : List (Option UInt8)} (hok : HtOk h content)
    (hr : h.event src e = .ok h') : HtOk h' (content ++ eventContent src e) := by
  unfold HeadingText.event at hr
  unfold eventContent
  split at hr
  · rename_i hk
    obtain ⟨s, h1, h2⟩ := bind_ok hr
    simp only [Pure.pure, Except.pure, Except.ok.injEq] at h2
    subst h2
    have hs : s = (src.drop e.span.start).take (e.span.stop - e.span.start) := by
      unfold strSlice at h1
      split at h1
      · cases h1; rfl
      · cases h1
    rw [← hs]
    have hc := chars_ok s { h with text := h.text ++ s }
    simp only [hk]
    refine ⟨?_, fun rest => ?_⟩
    · rw [hc.1, hok.1]
      unfold headingText
      rw [List.map_append, List.map_map]
      show _ ++ s = _ ++ List.map (fun a => a) s
      rw [List.map_id']
    · rw [hc.2 rest]
      simp only [List.append_assoc]
      exact hok.2 _
  · rename_i hk
    simp only [Except.ok.injEq] at hr
    subst hr
    simp only [hk]
    refine ⟨?_, fun rest => ?_⟩
    · simp [hok.1, headingText]
    · have := hok.2 (none :: rest)
      simp only [slug] at this
      simpa using this
  · rename_i hk1 hk2
    simp only [Except.ok.injEq] at hr
    subst hr
    have : eventContent src e = [] := by
      unfold eventContent
      split
      · rename_i h; exact absurd h hk1
      · rename_i h; exact absurd h hk2
      · rfl
    rw [← eventContent, this]
    simpa using hok

theorem drain_ht {src : Bytes} (fuel : Nat) {p p' : Inline.IP} {h h' : HeadingText} {content : List (Option UInt8)} (hok : HtOk h content)
    (hr : drainHeading src fuel p h = .ok (p', h')) : ∃ es, Drains p es p' ∧ HtOk h' (content ++ es.flatMap (eventContent src)) := by
  induction fuel generalizing p h content with
  | zero => simp [drainHeading] at hr
  | succ fuel ih =>
    unfold drainHeading at hr
    obtain ⟨⟨q, e⟩, h1, h2⟩ := bind_ok hr
    cases e with
    | none =>
      simp only [Pure.pure, Except.pure, Except.ok.injEq, Prod.mk.injEq] at h2
      obtain ⟨rfl, rfl⟩ := h2
      exact ⟨[], .none h1, by simpa using hok⟩
    | some e =>
      obtain ⟨h3, h4, h5⟩ := bind_ok h2
      obtain ⟨es, g1, g2⟩ := ih (event_ht hok h4) h5
      exact ⟨e :: es, .some h1 g1, by simpa using g2⟩

theorem headingLines_ht {src : Bytes} (ls : List Span) {p p' : Inline.IP} {h h' : HeadingText} {n : Nat} {content : List (Option UInt8)}
    (hok : HtOk h content) (hr : headingLines src p h n ls = .ok (p', h')) :
    ∃ es, DrainsLines p (ls ++ [⟨(ls.getLast?.map (·.stop)).getD n, (ls.getLast?.map (·.stop)).getD n⟩]) es ∧ HtOk h' (content ++ es.flatMap (eventContent src)) := by
  induction ls generalizing p h n content with
  | nil =>
    unfold headingLines at hr
    obtain ⟨q, h1, h2⟩ := bind_ok hr
    obtain ⟨es, g1, g2⟩ := drain_ht _ hok h2
    have := DrainsLines.cons (ls := []) (es' := []) h1 g1 .nil
    exact ⟨es, by simpa using this, g2⟩
  | cons sp ls ih =>
    unfold headingLines at hr
    obtain ⟨q, h0, h2⟩ := bind_ok hr
    obtain ⟨⟨q', h1⟩, h3, h4⟩ := bind_ok h2
    obtain ⟨es, g1, g2⟩ := drain_ht _ hok h3
    obtain ⟨es', g3, g4⟩ := ih g2 h4
    have hlast : ((sp :: ls).getLast?.map (·.stop)).getD n = (ls.getLast?.map (·.stop)).getD sp.stop := by
      cases ls with
      | nil => rfl
      | cons a l => rw [List.getLast?_cons_cons, List.getLast?_eq_some_getLast (by simp)]; rfl
    refine ⟨es ++ es', ?_, by simpa using g4⟩
    rw [hlast, List.cons_append]
    refine .cons ?_ g1 g3
    have : (ls ++ [(⟨(ls.getLast?.map (·.stop)).getD sp.stop, (ls.getLast?.map (·.stop)).getD sp.stop⟩ : Span)]).isEmpty = false := by simp
    rw [this]; exact h0

/-! ## The first pass -/

/-- The invariant of the loop over the block events: `es` are the events so far. -/
structure PreOk (s : PreState) (starts : List Nat) (labels : List (Bytes × Bytes)) : Prop where
  ids : SomeIds [] s.headings
  used : s.usedIds = (s.headings.map (·.idAuto)).reverse
  locs : s.headings.map (·.location) = starts.map (· % 4294967296)
  defs : s.linkDefinitions.map (fun d => (d.1, d.2.1)) = labels.reverse

theorem takeInlines_nested {src : Bytes} {l : Block.Leaf} {st : List Block.Node} {es : List Block.Event} (h : Block.nested (.leaf l :: st) es = true) :
    ∃ st', Block.nested st' (takeInlines es).2 = true ∧ headingStarts (takeInlines es).2 = headingStarts es ∧
      definitions src (takeInlines es).2 = definitions src es := by
  induction es with
  | nil => exact ⟨_, h, rfl, rfl⟩
  | cons e es ih =>
    unfold takeInlines
    by_cases hk : e.kind = .inline
    · rw [if_pos hk]
      rw [Block.nested.eq_def] at h
      simp only [hk] at h
      obtain ⟨st', h1, h2, h3⟩ := ih h
      refine ⟨st', h1, ?_, ?_⟩
      · rw [h2]; simp [headingStarts, hk]
      · rw [h3]; simp [definitions, hk]
    · rw [if_neg hk]
      rw [Block.nested.eq_def] at h
      cases hk' : e.kind with
      | inline => exact absurd hk' hk
      | enter n => simp [hk'] at h
      | exit n =>
        simp only [hk', Bool.and_eq_true] at h
        exact ⟨_, h.2, by simp [headingStarts, hk'], by simp [definitions, hk']⟩
      | atom a => simp [hk'] at h
      | stale =>
        simp only [hk'] at h
        exact ⟨_, h, by simp [headingStarts, hk'], by simp [definitions, hk']⟩

theorem nested_tail {st : List Block.Node} {e : Block.Event} {es : List Block.Event} (h : Block.nested st (e :: es) = true) :
    ∃ st', Block.nested st' es = true := by
  rw [Block.nested.eq_def] at h
  simp only at h
  split at h <;> first
    | exact ⟨_, h⟩
    | (simp only [Bool.and_eq_true] at h; exact ⟨_, h.2⟩)
    | simp at h

theorem nested_enter_tail {st : List Block.Node} {e : Block.Event} {n : Block.Node} {es : List Block.Event} (hk : e.kind = .enter n)
    (h : Block.nested st (e :: es) = true) : ∃ st', Block.nested (n :: st') es = true := by
  rw [Block.nested.eq_def] at h
  simp only [hk] at h
  cases st with
  | nil => simp at h
  | cons m st =>
    cases m with
    | leaf l => simp at h
    | container c =>
      simp only [Bool.and_eq_true] at h
      exact ⟨_, h.2⟩

theorem heading_pre {src : Bytes} {s s' : PreState} {start : Nat} {inl : List Span} {starts : List Nat} {labels : List (Bytes × Bytes)}
    (hok : PreOk s starts labels) (h : s.heading src start inl = .ok s') : PreOk s' (starts ++ [start]) labels := by
  unfold PreState.heading at h
  obtain ⟨attrs, -, h⟩ := bind_ok h
  obtain ⟨ip, -, h⟩ := bind_ok h
  obtain ⟨⟨ip', ht⟩, h1, h⟩ := bind_ok h
  obtain ⟨id, h2, h⟩ := bind_ok h
  simp only [Pure.pure, Except.pure, Except.ok.injEq] at h
  subst h
  obtain ⟨es, -, hc⟩ := headingLines_ht (content := []) inl ⟨rfl, fun rest => by simp⟩ h1
  obtain ⟨id', h3, h4⟩ := uniqueId_ok s.usedIds ht.idAuto
  rw [h2] at h3
  cases h3
  have hs := hc.2 []
  simp [slug] at hs
  refine ⟨?_, ?_, ?_, hok.defs⟩
  · rw [SomeIds.append]
    refine ⟨hok.ids, ⟨_, hc.1, ?_⟩, trivial⟩
    rw [hs, hok.used] at h4
    simpa using h4
  · simp [hok.used]
  · simp [hok.locs]

theorem collectUrl_eq {src : Bytes} {es : List Block.Event} {url : Bytes} (h : collectUrl src (takeInlines es).1 = .ok url) :
    url = definitionUrl src es := by
  induction es generalizing url with
  | nil => simp [takeInlines, collectUrl] at h; simp [definitionUrl, h]
  | cons e es ih =>
    unfold takeInlines at h
    by_cases hk : e.kind = .inline
    · rw [if_pos hk] at h
      unfold collectUrl at h
      obtain ⟨s, h1, h⟩ := bind_ok h
      obtain ⟨rest, h2, h⟩ := bind_ok h
      simp only [Pure.pure, Except.pure, Except.ok.injEq] at h
      subst h
      have h3 := ih h2
      subst h3
      unfold strSlice at h1
      split at h1
      · cases h1
        simp [definitionUrl, hk]
      · cases h1
    · rw [if_neg hk] at h
      simp [collectUrl] at h
      have : ¬ (e.kind == .inline) = true := by simpa using hk
      simp [definitionUrl, List.takeWhile_cons, this, h]

theorem linkDefinition_pre {src : Bytes} {s s' : PreState} {label : Bytes} {es : List Block.Event} {starts : List Nat} {labels : List (Bytes × Bytes)}
    (hok : PreOk s starts labels) (h : s.linkDefinition src label (takeInlines es).1 = .ok s') : PreOk s' starts (labels ++ [(label, definitionUrl src es)]) := by
  unfold PreState.linkDefinition at h
  obtain ⟨attrs, -, h⟩ := bind_ok h
  obtain ⟨url, hu, h⟩ := bind_ok h
  simp only [Pure.pure, Except.pure, Except.ok.injEq] at h
  subst h
  exact ⟨hok.ids, hok.used, hok.locs, by simp [hok.defs, collectUrl_eq hu]⟩

theorem loop_pre {src : Bytes} (n : Nat) : ∀ (es : List Block.Event) (s s' : PreState) (st : List Block.Node) (starts : List Nat) (labels : List (Bytes × Bytes)), es.length ≤ n →
    Block.nested st es = true → PreOk s starts labels → s.loop src es = .ok s' →
    PreOk s' (starts ++ headingStarts es) (labels ++ definitions src es) := by
  induction n with
  | zero =>
    intro es s s' st starts labels hn hst hok h
    cases es with
    | nil => unfold PreState.loop at h; cases h; simpa [headingStarts, definitions] using hok
    | cons e es => simp at hn
  | succ n ih =>
    intro es s s' st starts labels hn hst hok h
    cases es with
    | nil => unfold PreState.loop at h; cases h; simpa [headingStarts, definitions] using hok
    | cons e es =>
      have hlen := takeInlines_length es
      simp only [List.length_cons] at hn
      unfold PreState.loop at h
      obtain ⟨st1, hst1⟩ := nested_tail hst
      split at h
      · next l hk =>
        obtain ⟨s1, h1, h2⟩ := bind_ok h
        obtain ⟨st2, hst2⟩ := nested_enter_tail hk hst
        obtain ⟨st3, h3, h4, h5⟩ := takeInlines_nested hst2
        have := ih _ _ _ st3 _ _ (by omega) h3 (linkDefinition_pre hok h1) h2
        rw [h4, h5] at this
        have e1 : headingStarts (e :: es) = headingStarts es := by simp [headingStarts, hk]
        have e2 : definitions src (e :: es) = (l, definitionUrl src es) :: definitions src es := by simp [definitions, hk]
        rw [e1, e2]
        simpa using this
      · next a b c hk =>
        obtain ⟨s1, h1, h2⟩ := bind_ok h
        obtain ⟨st2, hst2⟩ := nested_enter_tail hk hst
        obtain ⟨st3, h3, h4, h5⟩ := takeInlines_nested hst2
        have := ih _ _ _ st3 _ _ (by omega) h3 (heading_pre hok h1) h2
        rw [h4, h5] at this
        have e1 : headingStarts (e :: es) = e.span.start :: headingStarts es := by simp [headingStarts, hk]
        have e2 : definitions src (e :: es) = definitions src es := by simp [definitions, hk]
        rw [e1, e2]
        simpa using this
      · next hk =>
        have e1 : headingStarts (e :: es) = headingStarts es := by simp [headingStarts, hk]
        have e2 : definitions src (e :: es) = definitions src es := by simp [definitions, hk]
        rw [e1, e2]
        exact ih _ { s with attrPrev := s.attrPrev ++ [e.span] } _ st1 _ _ (by omega) hst1 ⟨hok.ids, hok.used, hok.locs, hok.defs⟩ h
      · next n h1 h2 hk =>
        have e1 : headingStarts (e :: es) = headingStarts es := by
          simp only [headingStarts, List.filterMap_cons]
          cases n with
          | container c => simp [hk]
          | leaf l => cases l with
            | heading a b c => exact absurd rfl (h2 a b c)
            | _ => simp [hk]
        have e2 : definitions src (e :: es) = definitions src es := by
          simp only [definitions]
          cases n with
          | container c => simp [hk]
          | leaf l => cases l with
            | linkDefinition a => exact absurd rfl (h1 a)
            | _ => simp [hk]
        rw [e1, e2]
        exact ih _ s _ st1 _ _ (by omega) hst1 hok h
      · next n hk =>
        have e1 : headingStarts (e :: es) = headingStarts es := by simp [headingStarts, hk]
        have e2 : definitions src (e :: es) = definitions src es := by simp [definitions, hk]
        rw [e1, e2]
        exact ih _ s _ st1 _ _ (by omega) hst1 hok h
      · next h1 h2 h3 h4 h5 =>
        have e1 : headingStarts (e :: es) = headingStarts es := by
          simp only [headingStarts, List.filterMap_cons]
        have e2 : definitions src (e :: es) = definitions src es := by
          simp only [definitions]
        rw [e1, e2]
        exact ih _ { s with attrPrev := [] } _ st1 _ _ (by omega) hst1 ⟨hok.ids, hok.used, hok.locs, hok.defs⟩ h

/-! ## Binary search -/

/-- If the elements are sorted with respect to `f` and one compares equal, one is found. -/
theorem bsearch_found {α : Type} {f : α → Ordering} {l : List α}
    (hgt : ∀ (i j : Nat) x y, i ≤ j → l[i]? = some x → l[j]? = some y → f x = .gt → f y = .gt)
    (hlt : ∀ (i j : Nat) x y, i ≤ j → l[i]? = some x → l[j]? = some y → f y = .lt → f x = .lt)
    (base size : Nat) (hb : base + size ≤ l.length)
    (hk : ∃ k x, base ≤ k ∧ k < base + size ∧ l[k]? = some x ∧ f x = .eq) :
    ∃ x ∈ l, bsearch f l base size = some x ∧ f x = .eq := by
  induction size using Nat.strongRecOn generalizing base with
  | ind size ih =>
    obtain ⟨k, x, h1, h2, h3, h4⟩ := hk
    unfold bsearch
    by_cases hs : size ≤ 1
    · rw [if_pos hs]
      have : k = base := by omega
      subst this
      simp only [h3, h4, if_true]
      exact ⟨x, List.mem_of_getElem? h3, rfl, h4⟩
    · rw [if_neg hs]
      have hm : base + size / 2 < l.length := by omega
      have hmx : l[base + size / 2]? = some l[base + size / 2] := List.getElem?_eq_getElem hm
      rw [hmx]
      simp only
      by_cases hg : f l[base + size / 2] = .gt
      · rw [if_pos hg]
        refine ih _ (by omega) base (by omega) ⟨k, x, h1, ?_, h3, h4⟩
        by_cases hkm : k < base + size / 2
        · omega
        · have := hgt _ k _ x (by omega) hmx h3 hg
          rw [h4] at this
          simp at this
      · rw [if_neg hg]
        refine ih _ (by omega) _ (by omega) ?_
        by_cases hkm : base + size / 2 ≤ k
        · exact ⟨k, x, hkm, by omega, h3, h4⟩
        · refine ⟨base + size / 2, _, Nat.le_refl _, by omega, hmx, ?_⟩
          cases hf : f l[base + size / 2] with
          | eq => rfl
          | gt => exact absurd hf hg
          | lt =>
            have := hlt k _ x _ (by omega) h3 hmx hf
            rw [h4] at this
            simp at this

theorem bsearch_mem {α : Type} {f : α → Ordering} {l : List α} (base size : Nat) {x : α} (h : bsearch f l base size = some x) :
    x ∈ l ∧ f x = .eq := by
  induction size using Nat.strongRecOn generalizing base with
  | ind size ih =>
    unfold bsearch at h
    split at h
    · split at h
      · next y hy =>
        split at h
        · next he => cases h; exact ⟨List.mem_of_getElem? hy, he⟩
        · simp at h
      · simp at h
    · split at h
      · split at h
        · exact ih _ (by omega) _ h
        · exact ih _ (by omega) _ h
      · simp at h

end Jotdown
