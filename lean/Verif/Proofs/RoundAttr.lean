import Verif.Props.Attr
import Verif.Props.AttrSyntax
import Verif.Proofs.Marker
import Verif.Proofs.RoundIdent
/-! # Round trip: a line of attributes -/
namespace Jotdown.Attr
open Jotdown

/-- The validator does not finish within these bytes. -/
def noDone (st : State) : Bytes → Bool
  | [] => true
  | c :: cs => decide (nextSt st c ≠ .done) && noDone (nextSt st c) cs

/-- The state after some bytes. -/
def stAfter (st : State) (cs : Bytes) : State := cs.foldl nextSt st

theorem noDone_append (st : State) (a b : Bytes) : noDone st (a ++ b) = (noDone st a && noDone (stAfter st a) b) := by
  induction a generalizing st with
  | nil => rfl
  | cons c a ih => simp only [List.cons_append, noDone, ih, Bool.and_assoc]; rfl

theorem stAfter_append (st : State) (a b : Bytes) : stAfter st (a ++ b) = stAfter (stAfter st a) b := by simp [stAfter]

theorem noDone_plain (st : State) {cs : Bytes} (h : c! '}' ∉ cs) : noDone st cs = true := by
  induction cs generalizing st with
  | nil => rfl
  | cons c cs ih =>
    simp only [List.mem_cons, not_or] at h
    simp only [noDone, ih _ h.2, Bool.and_true, decide_eq_true_eq]
    exact fun hd => h.1 (nextSt_done _ _ hd).symm

/-- Inside of quoted text. -/
def inText (st : State) : Prop := st = .valueQuoted ∨ st = .valueEscape ∨ st = .valueNewline ∨ st = .valueContinued

instance (st : State) : Decidable (inText st) := inferInstanceAs (Decidable (_ ∨ _))

theorem inText_step (st : State) (c : UInt8) : inText st → c ≠ c! '"' → inText (nextSt st c) := by
  revert c; apply ofFin; cases st <;> decide +kernel

theorem inText_ne {st : State} (h : inText st) : st ≠ .done := by
  rcases h with rfl | rfl | rfl | rfl <;> simp

theorem text_noDone {cs : Bytes} {st : State} (hs : inText st) (h : c! '"' ∉ cs) : noDone st cs = true ∧ inText (stAfter st cs) := by
  induction cs generalizing st with
  | nil => exact ⟨rfl, hs⟩
  | cons c cs ih =>
    simp only [List.mem_cons, not_or] at h
    have h1 := inText_step st c hs (fun e => h.1 e.symm)
    obtain ⟨i1, i2⟩ := ih h1 h.2
    exact ⟨by simp [noDone, i1, inText_ne h1], i2⟩

theorem quoted_step (c : UInt8) : (c ≠ c! '\\' → c ≠ c! '"' → c ≠ c! '\n' → nextSt .valueQuoted c = .valueQuoted) ∧ nextSt .valueQuoted (c! '\\') = .valueEscape ∧
    (c ≠ c! '\n' → nextSt .valueEscape c = .valueQuoted) := by
  revert c; apply ofFin; decide +kernel

theorem esc_noDone {cs : Bytes} (h : EscOk cs = true) (hn : c! '\n' ∉ cs) : noDone .valueQuoted cs = true ∧ stAfter .valueQuoted cs = .valueQuoted := by
  fun_induction EscOk cs with
  | case1 => exact ⟨rfl, rfl⟩
  | case2 c =>
    simp at h hn
    have := (quoted_step c).1 h.2 h.1 (fun e => hn e.symm)
    simp [noDone, stAfter, this]
  | case3 d r ih =>
    simp only [List.mem_cons, not_or] at hn
    obtain ⟨i1, i2⟩ := ih h hn.2.2
    have h1 := (quoted_step d).2.1
    have h2 := (quoted_step d).2.2 (fun e => hn.2.1 e.symm)
    refine ⟨by simp [noDone, h1, h2, i1], ?_⟩
    simpa [stAfter, h1, h2] using i2
  | case4 c d r hc ih =>
    simp only [Bool.and_eq_true, bne_iff_ne, ne_eq] at h
    simp only [List.mem_cons, not_or] at hn
    obtain ⟨i1, i2⟩ := ih h.2 (by simpa using hn.2)
    have h1 := (quoted_step c).1 hc h.1 (fun e => hn.1 e.symm)
    rw [noDone, h1]
    refine ⟨by rw [i1]; rfl, ?_⟩
    show stAfter (nextSt .valueQuoted c) (d :: r) = _
    rw [h1, i2]

theorem quotedText_noDone {t : Bytes} (h : QuotedOk t) : noDone .valueQuoted t = true ∧ inText (stAfter .valueQuoted t) := by
  rcases quoted_cases h with ⟨h1, h2⟩ | ⟨a, b, rfl, h1, h2, h3⟩
  · obtain ⟨i1, i2⟩ := esc_noDone h1 h2
    exact ⟨i1, .inl i2⟩
  · obtain ⟨i1, i2⟩ := esc_noDone h2 h1
    rw [noDone_append, stAfter_append, i1, i2]
    have := text_noDone (st := .valueQuoted) (cs := c! '\n' :: b) (.inl rfl) (by simpa using h3)
    exact ⟨by rw [this.1]; rfl, this.2⟩

theorem cont_step (c : UInt8) : (c ≠ c! '"' → nextSt .valueNewline c = .valueNewline ∨ nextSt .valueNewline c = .valueContinued) ∧
    (c ≠ c! '"' → nextSt .valueContinued c = .valueNewline ∨ nextSt .valueContinued c = .valueContinued) := by
  revert c; apply ofFin; decide +kernel

theorem cont_st {cs : Bytes} (h : c! '"' ∉ cs) {st : State} (hs : st = .valueNewline ∨ st = .valueContinued) : stAfter st cs = .valueNewline ∨ stAfter st cs = .valueContinued := by
  induction cs generalizing st with
  | nil => exact hs
  | cons c cs ih =>
    simp only [List.mem_cons, not_or] at h
    refine ih h.2 ?_
    rcases hs with rfl | rfl
    · exact (cont_step c).1 (fun e => h.1 e.symm)
    · exact (cont_step c).2 (fun e => h.1 e.symm)

theorem stAfter_quoted {t : Bytes} (h : QuotedOk t) : stAfter .valueQuoted t = .valueQuoted ∨ stAfter .valueQuoted t = .valueNewline ∨ stAfter .valueQuoted t = .valueContinued := by
  rcases quoted_cases h with ⟨h1, h2⟩ | ⟨a, b, rfl, h1, h2, h3⟩
  · exact .inl (esc_noDone h1 h2).2
  · right
    rw [stAfter_append, (esc_noDone h2 h1).2]
    exact cont_st h3 (.inl rfl)

theorem step_facts (c : UInt8) : (isName c = true → nextSt .classFirst c = .class ∧ nextSt .class c = .class ∧ nextSt .identifierFirst c = .identifier ∧ nextSt .identifier c = .identifier
      ∧ nextSt .whitespace c = .key ∧ nextSt .key c = .key ∧ nextSt .valueFirst c = .value ∧ nextSt .value c = .value ∧ c ≠ c! '}')
    ∧ (isWs c = true → nextSt .whitespace c = .whitespace ∧ nextSt .class c = .whitespace ∧ nextSt .identifier c = .whitespace ∧ nextSt .value c = .whitespace ∧ c ≠ c! '}') := by
  revert c; apply ofFin; decide +kernel

theorem stAfter_all {st st1 : State} {n : Bytes} (h0 : n ≠ []) (h1 : ∀ c ∈ n, nextSt st c = st1 ∧ nextSt st1 c = st1) : stAfter st n = st1 := by
  cases n with
  | nil => exact absurd rfl h0
  | cons c n =>
    have : ∀ m : Bytes, (∀ c ∈ m, nextSt st1 c = st1) → stAfter st1 m = st1 := by
      intro m
      induction m with
      | nil => intro _; rfl
      | cons d m ih =>
        intro hm
        show stAfter (nextSt st1 d) m = st1
        rw [hm d (by simp), ih (fun x hx => hm x (by simp [hx]))]
    show stAfter (nextSt st c) n = st1
    rw [(h1 c (by simp)).1, this n (fun x hx => (h1 x (by simp [hx])).2)]

theorem name_brace {n : Bytes} (h : Name n) : c! '}' ∉ n := fun hm => ((step_facts _).1 (h.2 _ hm)).2.2.2.2.2.2.2.2 rfl

theorem comment_st {t : Bytes} (h1 : c! '%' ∉ t) (h2 : c! '}' ∉ t) : stAfter .whitespace (b! "%" ++ t ++ b! "%") = .whitespace := by
  have hc : ∀ c : UInt8, c ≠ c! '%' → c ≠ c! '}' → ∀ st, (st = .commentFirst ∨ st = .comment ∨ st = .commentNewline) →
      (nextSt st c = .commentFirst ∨ nextSt st c = .comment ∨ nextSt st c = .commentNewline) := by
    have : ∀ c : UInt8, c ≠ c! '%' → c ≠ c! '}' → (nextSt .commentFirst c = .commentFirst ∨ nextSt .commentFirst c = .comment ∨ nextSt .commentFirst c = .commentNewline) ∧
        (nextSt .comment c = .commentFirst ∨ nextSt .comment c = .comment ∨ nextSt .comment c = .commentNewline) ∧
        (nextSt .commentNewline c = .commentFirst ∨ nextSt .commentNewline c = .comment ∨ nextSt .commentNewline c = .commentNewline) := by
      apply ofFin; decide +kernel
    intro c h1 h2 st hst
    obtain ⟨g1, g2, g3⟩ := this c h1 h2
    rcases hst with rfl | rfl | rfl
    · exact g1
    · exact g2
    · exact g3
  have : ∀ (st : State), (st = .commentFirst ∨ st = .comment ∨ st = .commentNewline) → stAfter st t = .commentFirst ∨ stAfter st t = .comment ∨ stAfter st t = .commentNewline := by
    induction t with
    | nil => exact fun st h => h
    | cons c t ih =>
      simp only [List.mem_cons, not_or] at h1 h2
      intro st hst
      exact ih h1.2 h2.2 _ (hc c (fun e => h1.1 e.symm) (fun e => h2.1 e.symm) st hst)
  rw [stAfter_append, stAfter_append]
  have h3 := this .commentFirst (.inl rfl)
  show nextSt (stAfter .commentFirst t) _ = _
  rcases h3 with h | h | h <;> (rw [h]; rfl)

/-- The state after an element, and that the validator does not finish within it. -/
theorem item_noDone {i : Item} (h : i.Ok) : noDone .whitespace i.text = true ∧
    (if i.closed then stAfter .whitespace i.text = .whitespace
     else stAfter .whitespace i.text = .class ∨ stAfter .whitespace i.text = .identifier ∨ stAfter .whitespace i.text = .value) := by
  cases i with
  | cls n =>
    refine ⟨noDone_plain _ ?_, .inl ?_⟩
    · have := name_brace h
      simp [Item.text, this]
    · show stAfter .classFirst n = _
      exact stAfter_all h.1 (fun c hc => ⟨((step_facts c).1 (h.2 c hc)).1, ((step_facts c).1 (h.2 c hc)).2.1⟩)
  | id n =>
    refine ⟨noDone_plain _ ?_, .inr (.inl ?_)⟩
    · have := name_brace h
      simp [Item.text, this]
    · show stAfter .identifierFirst n = _
      exact stAfter_all h.1 (fun c hc => ⟨((step_facts c).1 (h.2 c hc)).2.2.1, ((step_facts c).1 (h.2 c hc)).2.2.2.1⟩)
  | bare k v =>
    obtain ⟨hk, hv⟩ := h
    refine ⟨noDone_plain _ ?_, .inr (.inr ?_)⟩
    · have h1 := name_brace hk
      have h2 := name_brace hv
      simp [Item.text, h1, h2]
    · simp only [Item.text]
      rw [stAfter_append, stAfter_append, stAfter_all (st1 := .key) hk.1 (fun c hc => ⟨((step_facts c).1 (hk.2 c hc)).2.2.2.2.1, ((step_facts c).1 (hk.2 c hc)).2.2.2.2.2.1⟩)]
      exact stAfter_all hv.1 (fun c hc => ⟨((step_facts c).1 (hv.2 c hc)).2.2.2.2.2.2.1, ((step_facts c).1 (hv.2 c hc)).2.2.2.2.2.2.2.1⟩)
  | quoted k t =>
    obtain ⟨hk, ht⟩ := h
    obtain ⟨t1, t2⟩ := quotedText_noDone ht
    have e1 : stAfter .whitespace (k ++ b! "=\"") = .valueQuoted := by
      rw [stAfter_append, stAfter_all (st1 := .key) hk.1 (fun c hc => ⟨((step_facts c).1 (hk.2 c hc)).2.2.2.2.1, ((step_facts c).1 (hk.2 c hc)).2.2.2.2.2.1⟩)]
      rfl
    have hq := stAfter_quoted ht
    have et : Item.text (.quoted k t) = (k ++ b! "=\"") ++ (t ++ b! "\"") := by simp [Item.text]
    simp only [et, Item.closed, ↓reduceIte]
    rw [noDone_append _ (k ++ b! "=\""), noDone_append _ t, stAfter_append _ (k ++ b! "=\""), e1, t1]
    refine ⟨?_, ?_⟩
    · rw [noDone_plain .whitespace (cs := k ++ b! "=\"") (by have := name_brace hk; simp [this]), noDone_plain _ (cs := b! "\"") (by simp)]
      rfl
    · rw [stAfter_append]
      show nextSt (stAfter .valueQuoted t) (c! '"') = _
      rcases hq with h | h | h <;> (rw [h]; rfl)
  | comment t =>
    refine ⟨noDone_plain _ ?_, comment_st h.1 h.2⟩
    have := h.2
    simp [Item.text, this]

theorem ws_noDone {w : Bytes} (hw : ∀ c ∈ w, isWs c = true) (st : State) : noDone st w = true :=
  noDone_plain _ (fun hm => ((step_facts _).2 (hw _ hm)).2.2.2.2 rfl)

theorem ws_stAfter {w : Bytes} (hw : ∀ c ∈ w, isWs c = true) {st : State} (h : st = .whitespace ∨ (w ≠ [] ∧ (st = .class ∨ st = .identifier ∨ st = .value))) : stAfter st w = .whitespace := by
  have key : stAfter .whitespace w = .whitespace := by
    by_cases h0 : w = []
    · subst h0; rfl
    · exact stAfter_all h0 (fun c hc => ⟨((step_facts c).2 (hw c hc)).1, ((step_facts c).2 (hw c hc)).1⟩)
  rcases h with rfl | ⟨h0, h⟩
  · exact key
  · refine stAfter_all h0 (fun c hc => ⟨?_, ((step_facts c).2 (hw c hc)).1⟩)
    have := (step_facts c).2 (hw c hc)
    rcases h with rfl | rfl | rfl
    · exact this.2.1
    · exact this.2.2.1
    · exact this.2.2.2.1

theorem items_noDone {items : List (Item × Bytes)} (h : WellSeparated items) : noDone .whitespace (items.flatMap (fun i => i.1.text ++ i.2)) = true := by
  induction items with
  | nil => rfl
  | cons iw rest ih =>
    obtain ⟨i, w⟩ := iw
    obtain ⟨hi, hw, hsep, hrest⟩ := h
    obtain ⟨h1, h2⟩ := item_noDone hi
    rw [List.flatMap_cons, noDone_append, noDone_append, h1, ws_noDone hw]
    rcases hsep with rfl | hsep
    · rfl
    · have hst : stAfter .whitespace (i.text ++ w) = .whitespace := by
        rw [stAfter_append]
        cases hc : i.closed with
        | true =>
          rw [hc, if_pos rfl] at h2
          rw [h2]; exact ws_stAfter hw (.inl rfl)
        | false =>
          rw [hc, if_neg (by simp)] at h2
          rw [hc] at hsep
          exact ws_stAfter hw (.inr ⟨by simpa using hsep, h2⟩)
      simp only
      rw [hst, ih hrest]
      rfl

/-- The validator does not finish before the closing brace. -/
theorem attrs_noDone {w : Bytes} (hw : ∀ c ∈ w, isWs c = true) {items : List (Item × Bytes)} (h : WellSeparated items) :
    noDone .start (b! "{" ++ w ++ items.flatMap (fun i => i.1.text ++ i.2)) = true := by
  rw [noDone_append, noDone_append, stAfter_append]
  have e : stAfter .start (b! "{") = .whitespace := rfl
  rw [e, ws_noDone hw, ws_stAfter hw (.inl rfl), items_noDone h]
  rfl

theorem noDone_run {a : Bytes} {p q : Parser} {ct ct' : Bytes} (hp : p.state ≠ .done) (h : noDone p.state a = true) (hr : frun (p, ct) a = some (q, ct')) : q.state ≠ .done := by
  induction a generalizing p ct with
  | nil => cases hr; exact hp
  | cons c a ih =>
    simp only [noDone, Bool.and_eq_true, decide_eq_true_eq] at h
    rw [frun_cons] at hr
    unfold fstep at hr
    simp only [if_neg hp] at hr
    cases hx : pureStep p ct c with
    | none => rw [hx] at hr; cases hr
    | some x =>
      rw [hx] at hr
      have hs := (pureStep_state (q := x.1) (ct' := x.2) hx).1
      exact ih (p := x.1) (ct := x.2) (by rw [hs]; exact h.1) (by rw [hs]; exact h.2) hr

theorem noDone_take {st : State} {a : Bytes} (h : noDone st a = true) (m : Nat) : noDone st (a.take m) = true := by
  rw [← List.take_append_drop m a, noDone_append] at h
  simp only [Bool.and_eq_true] at h
  exact h.1

/-- Written attributes are recognised up to their closing brace. -/
theorem valid_writeAttrs {w : Bytes} (hw : ∀ c ∈ w, isWs c = true) {items : List (Item × Bytes)} (h : WellSeparated items) :
    valid (writeAttrs w items ++ [c! '\n']) = .ok (writeAttrs w items).length := by
  obtain ⟨ct, hrun⟩ := reach_writeAttrs hw items h
  have hno := attrs_noDone hw h
  obtain ⟨st', k, hk, hA, hB⟩ := validLoop_eq .start 0 (writeAttrs w items ++ [c! '\n']) (by simp) (by simp)
  unfold valid
  rw [hk]
  simp only [Bind.bind, Except.bind]
  have hd : st' = .done := by
    by_cases hd : st' = .done
    · exact hd
    · exact absurd rfl (hB hd (writeAttrs w items).length _ _ _ _ rfl (by rw [List.take_left]; exact hrun))
  rw [if_pos hd]
  obtain ⟨m, rfl, hm2, hm3, hm4⟩ := hA hd
  obtain ⟨q, ct2, hr, hq⟩ := hm4 ⟨[], .start⟩ [] rfl
  have hlen : (writeAttrs w items).length = (b! "{" ++ w ++ items.flatMap (fun i => i.1.text ++ i.2)).length + 1 := by
    unfold writeAttrs; rw [List.length_append]; rfl
  have hge : ¬ m < (writeAttrs w items).length := by
    intro hlt
    rw [List.take_append_of_le_length (by omega)] at hr
    have e : (writeAttrs w items).take m = (b! "{" ++ w ++ items.flatMap (fun i => i.1.text ++ i.2)).take m := by
      unfold writeAttrs; rw [List.take_append_of_le_length (by omega)]
    rw [e] at hr
    exact noDone_run (by simp) (noDone_take hno m) hr hq
  have hle : ¬ (writeAttrs w items).length < m := by
    intro hlt
    rw [List.length_append] at hm2
    have hm : m = (writeAttrs w items ++ [c! '\n']).length := by simp at hm2 ⊢; omega
    rw [hm, List.take_length] at hr
    obtain ⟨l, hl⟩ := last_of_done (by simp) hr hq
    have := congrArg List.getLast? hl
    simp at this
  show Except.ok (0 + m) = _
  rw [show 0 + m = (writeAttrs w items).length by omega]

/-- The attributes in a line. -/
theorem attrs_of_line {w : Bytes} (hw : ∀ c ∈ w, isWs c = true) {items : List (Item × Bytes)} (h : WellSeparated items)
    (hu : Bd (writeAttrs w items ++ [c! '\n']) ∧ Safe (writeAttrs w items ++ [c! '\n'])) : tryFrom (writeAttrs w items ++ [c! '\n']) = .ok (.ok (items.map (·.1.elem))) := by
  show parseAttributes [] _ = _
  rw [parseAttributes_ok_iff hu.1 hu.2, Block.trimEnd_append_ws (by simp; decide)]
  have : trimEnd (writeAttrs w items) = writeAttrs w items := by
    unfold writeAttrs; exact trimEnd_concat (by decide)
  rw [this]
  exact reach_writeAttrs hw items h

end Jotdown.Attr

namespace Jotdown.Round
open Jotdown Jotdown.Notation

theorem attr_line {w : Bytes} {is : List (Attr.Item × Bytes)} : ∃ cs, Attr.writeAttrs w is ++ [c! '\n'] = c! '{' :: (cs ++ [c! '}', c! '\n']) := by
  refine ⟨w ++ is.flatMap (fun i => i.1.text ++ i.2), ?_⟩
  simp [Attr.writeAttrs]

/-- A line of attributes is recognised. -/
theorem attr_ident {w : Bytes} {is : List (Attr.Item × Bytes)} (hw : ∀ c ∈ w, isWs c = true) (h : Attr.WellSeparated is) :
    Block.identify (Attr.writeAttrs w is ++ [c! '\n']) = .ok (.atom .attributes, ⟨0, (Attr.writeAttrs w is ++ [c! '\n']).length⟩) := by
  have hv := Attr.valid_writeAttrs hw h
  have ht : trimEnd (Attr.writeAttrs w is ++ [c! '\n']) = Attr.writeAttrs w is := by
    rw [Block.trimEnd_append_ws (by simp; decide)]
    unfold Attr.writeAttrs; exact trimEnd_concat (by decide)
  obtain ⟨cs, e⟩ := attr_line (w := w) (is := is)
  rw [e] at hv ht ⊢
  rw [identify_cons (.inl (by decide))]
  have : Block.identMatch 0 (c! '{' :: (cs ++ [c! '}', c! '\n'])) (trimEnd (c! '{' :: (cs ++ [c! '}', c! '\n']))) (c! '{') (cs ++ [c! '}', c! '\n'])
      = .ok (some (.atom .attributes, ⟨0, (c! '{' :: (cs ++ [c! '}', c! '\n'])).length⟩)) := by
    unfold Block.identMatch
    rw [if_neg (by decide), if_neg (by decide), if_neg (by decide), if_pos rfl, hv, ht]
    simp [Bind.bind, Except.bind, pure, Except.pure]
  rw [this]
  rfl

end Jotdown.Round
