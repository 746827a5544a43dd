import Verif.Proofs.Base
import Verif.Model.Attr
/-! # Helper lemmas: attribute parser -/
namespace Jotdown.Attr
open Jotdown

/-- Total successor state. -/
def nextSt (st : State) (c : UInt8) : State :=
  match st.step c with
  | .ok s => s
  | .error _ => .invalid

theorem step_eq {st : State} (c : UInt8) (h1 : st ≠ .done) (h2 : st ≠ .invalid) :
    st.step c = .ok (nextSt st c) := by
  cases st <;> simp_all [nextSt, State.step]

/-- Total version of `modifyLast`. -/
def modLast (attrs : Attributes) (f : Bytes → Bytes) : Attributes :=
  match attrs.getLast? with
  | none => attrs
  | some (k, v) => attrs.dropLast ++ [(k, f v)]

theorem modifyLast_eq {attrs : Attributes} (f : Bytes → Bytes) (h : attrs ≠ []) :
    modifyLast attrs f = .ok (modLast attrs f) := by
  unfold modifyLast modLast
  cases hl : attrs.getLast? with
  | none => simp at hl; exact absurd hl h
  | some e => rfl

theorem modLast_append (pre : Attributes) (k : AttrKind) (v : Bytes) (f : Bytes → Bytes) :
    modLast (pre ++ [(k, v)]) f = pre ++ [(k, f v)] := by
  simp [modLast]

theorem modLast_ne_nil {attrs : Attributes} {f : Bytes → Bytes} (h : attrs ≠ []) :
    modLast attrs f ≠ [] := by
  unfold modLast
  cases hl : attrs.getLast? with
  | none => simpa using h
  | some e => simp

theorem modLast_prefix {pre attrs : Attributes} {f : Bytes → Bytes} (h : attrs ≠ []) :
    modLast (pre ++ attrs) f = pre ++ modLast attrs f := by
  rcases List.eq_nil_or_concat attrs with h0 | ⟨l, ⟨k, v⟩, rfl⟩
  · exact absurd h0 h
  · rw [List.concat_eq_append, ← List.append_assoc, modLast_append, modLast_append, List.append_assoc]

/-- Total version of `flush`. -/
def upd (st : State) (content : Bytes) (attrs : Attributes) : Attributes :=
  match st with
  | .class => attrs ++ [(.cls, content)]
  | .identifier => attrs ++ [(.id, content)]
  | .key => attrs ++ [(.pair content, [])]
  | .value | .valueContinued => modLast attrs (extend · content)
  | .valueQuoted => modLast attrs (extend · (content.drop 1))
  | .comment => modLast attrs (extendRaw · content)
  | .commentNewline => modLast attrs (extendRaw · (b! "\n"))
  | .commentFirst => attrs ++ [(.comment, [])]
  | _ => attrs

/-- The state has an element under construction. -/
def needLast : State → Bool
  | .value | .valueQuoted | .valueEscape | .valueNewline | .valueContinued | .valueFirst
  | .comment | .commentNewline => true
  | _ => false

/-- The state is left only at a character boundary. -/
def needBd : State → Bool
  | .commentFirst | .commentNewline | .valueNewline => true
  | _ => false

theorem flush_eq {st : State} {content : Bytes} {attrs : Attributes}
    (h1 : needLast st → attrs ≠ [])
    (h2 : st = .valueQuoted → ∃ t, content = c! '"' :: t ∧ Bd t) :
    flush st content attrs = .ok (upd st content attrs) := by
  cases st <;> simp only [flush, upd] <;> try rfl
  all_goals try (simp only [modifyLast_eq _ (h1 rfl)])
  obtain ⟨t, rfl, hbd⟩ := h2 rfl
  have : strSlice (c! '"' :: t) 1 (c! '"' :: t).length = .ok t := by
    rw [strSlice_ok (by simp) (by simp) (by simpa using hbd) (by simp)]; simp
  rw [this]
  simp [Bind.bind, Except.bind]

/-- Whether the transition flushes. -/
def flushes (st st' : State) : Bool :=
  decide (st ≠ st' ∧ st ≠ .valueEscape ∧ st' ≠ .valueEscape)

/-- One byte: the new attributes, state and text since the last flush; none if invalid. -/
def pureStep (p : Parser) (content : Bytes) (c : UInt8) : Option (Parser × Bytes) :=
  if nextSt p.state c = .invalid then none
  else if flushes p.state (nextSt p.state c) then
    some (⟨upd p.state content p.attrs, nextSt p.state c⟩, [c])
  else some (⟨p.attrs, nextSt p.state c⟩, content ++ [c])

/-- `Parser::parse` without positions and panics. -/
def pureRun (p : Parser) (content : Bytes) (pos : Nat) : Bytes → Parser × Except Nat Nat
  | [] => (p, .ok pos)
  | c :: cs =>
    match pureStep p content c with
    | none => (p, .error pos)
    | some (q, content) =>
      if q.state = .done then
        if cs.head? = some (c! '{') then pureRun ⟨q.attrs, .start⟩ content (pos + 1) cs
        else (q, .ok (pos + 1))
      else pureRun q content (pos + 1) cs

/-- Invariant of the loop. -/
structure Inv (p : Parser) (content cs : Bytes) : Prop where
  nd : p.state ≠ .done
  ni : p.state ≠ .invalid
  last : needLast p.state → p.attrs ≠ []
  quote : (p.state = .valueQuoted ∨ p.state = .valueEscape) → ∃ t, content = c! '"' :: t ∧ Bd (t ++ cs)
  bd : Bd (content ++ cs)
  need : needBd p.state → Bd cs
  safe : Safe cs

theorem upd_ne_nil {st : State} {content : Bytes} {attrs : Attributes}
    (h : needLast st → attrs ≠ []) (h' : needLast st ∨ st = .key ∨ st = .commentFirst) :
    upd st content attrs ≠ [] := by
  cases st <;> simp_all [upd, needLast, modLast_ne_nil]

theorem nextSt_cases (st : State) (c : UInt8) : nextSt st c = .invalid ∨ c < 128 ∨
    (nextSt st c = .comment ∧ (st = .comment ∨ st = .commentFirst ∨ st = .commentNewline)) ∨
    (nextSt st c = .valueQuoted ∧ (st = .valueQuoted ∨ st = .valueEscape)) ∨
    (nextSt st c = .valueContinued ∧ (st = .valueContinued ∨ st = .valueNewline)) := by
  revert c; apply ofFin; revert st
  intro st; cases st <;> decide +kernel

theorem nextSt_needLast (st : State) (c : UInt8) : needLast (nextSt st c) = true →
    needLast st = true ∨ st = .key ∨ st = .commentFirst := by
  revert c; apply ofFin; revert st
  intro st; cases st <;> decide +kernel

theorem nextSt_flush_key (st : State) (c : UInt8) : needLast (nextSt st c) = true →
    needLast st = true ∨ flushes st (nextSt st c) = true := by
  revert c; apply ofFin; revert st
  intro st; cases st <;> decide +kernel

theorem nextSt_quoted (st : State) (c : UInt8) : (nextSt st c = .valueQuoted ∨ nextSt st c = .valueEscape) →
    (st = .valueFirst ∧ c = c! '"' ∧ nextSt st c = .valueQuoted) ∨
    (st = .valueQuoted ∨ st = .valueEscape) ∧ flushes st (nextSt st c) = false := by
  revert c; apply ofFin; revert st
  intro st; cases st <;> decide +kernel

theorem nextSt_needBd (st : State) (c : UInt8) : needBd (nextSt st c) = true → c < 128 := by
  revert c; apply ofFin; revert st
  intro st; cases st <;> decide +kernel

theorem flushes_bd (st : State) (c : UInt8) : nextSt st c ≠ .invalid → flushes st (nextSt st c) = true →
    needBd st = false → c < 128 := by
  revert c; apply ofFin; revert st
  intro st; cases st <;> decide +kernel

theorem flush_of_done (st : State) (c : UInt8) : nextSt st c = .done → flushes st (nextSt st c) = true ∧ c < 128 := by
  revert c; apply ofFin; revert st
  intro st; cases st <;> decide +kernel

theorem flush_bd {st : State} {c : UInt8} {cs : Bytes} (hi : nextSt st c ≠ .invalid)
    (hf : flushes st (nextSt st c) = true) (hn : needBd st = true → Bd (c :: cs)) : Bd (c :: cs) := by
  cases hb : needBd st with
  | true => exact hn hb
  | false => exact Bd_of_lt (flushes_bd st c hi hf hb)

/-- Invariant after a step that does not end the attributes. -/
theorem Inv.step {p q : Parser} {content content' cs : Bytes} {c : UInt8}
    (h : Inv p content (c :: cs)) (hs : pureStep p content c = some (q, content'))
    (hd : q.state ≠ .done) : Inv q content' cs := by
  unfold pureStep at hs
  split at hs
  · simp at hs
  rename_i hi
  split at hs
  · rename_i hf
    simp only [Option.some.injEq, Prod.mk.injEq] at hs
    obtain ⟨rfl, rfl⟩ := hs
    refine ⟨hd, hi, ?_, ?_, ?_, ?_, h.safe.2⟩
    · intro hl
      exact upd_ne_nil h.last (nextSt_needLast _ _ hl)
    · intro hq
      rcases nextSt_quoted _ _ hq with ⟨_, hc, _⟩ | ⟨_, h2⟩
      · refine ⟨[], by rw [hc], ?_⟩
        subst hc
        simpa using h.safe.1 (by decide)
      · rw [h2] at hf; exact absurd hf (by decide)
    · have := flush_bd hi hf h.need
      simpa using this
    · intro hn; exact h.safe.1 (nextSt_needBd _ _ hn)
  · rename_i hf
    simp only [Option.some.injEq, Prod.mk.injEq] at hs
    obtain ⟨rfl, rfl⟩ := hs
    refine ⟨hd, hi, ?_, ?_, ?_, ?_, h.safe.2⟩
    · intro hl
      rcases nextSt_flush_key _ _ hl with h1 | h1
      · exact h.last h1
      · exact absurd h1 hf
    · intro hq
      rcases nextSt_quoted _ _ hq with ⟨h1, _, h3⟩ | ⟨h1, h2⟩
      · exfalso; apply hf; rw [h1, h3] at *; decide
      · obtain ⟨t, ht, hb⟩ := h.quote h1
        exact ⟨t ++ [c], by rw [ht]; rfl, by simpa using hb⟩
    · simpa using h.bd
    · intro hn; exact h.safe.1 (nextSt_needBd _ _ hn)

/-- Invariant after the end of a set directly followed by another. -/
theorem Inv.restart {p q : Parser} {content content' cs : Bytes} {c : UInt8}
    (h : Inv p content (c :: cs)) (hs : pureStep p content c = some (q, content'))
    (hd : q.state = .done) : Inv ⟨q.attrs, .start⟩ content' cs := by
  unfold pureStep at hs
  split at hs
  · simp at hs
  split at hs
  · simp only [Option.some.injEq, Prod.mk.injEq] at hs
    obtain ⟨rfl, rfl⟩ := hs
    have := flush_of_done _ _ hd
    exact ⟨by simp, by simp, by simp [needLast], by simp, by simpa using not_isCont_of_lt this.2, by simp [needBd], h.safe.2⟩
  · rename_i hf
    simp only [Option.some.injEq, Prod.mk.injEq] at hs
    obtain ⟨rfl, rfl⟩ := hs
    exact absurd (flush_of_done _ _ hd).1 hf

theorem parseLoop_eq (input pre content cs : Bytes) (p : Parser)
    (hin : input = pre ++ content ++ cs) (h : Inv p content cs) :
    parseLoop input (pre.length + content.length) pre.length p cs =
      .ok (pureRun p content (pre.length + content.length) cs) := by
  induction cs generalizing pre content p with
  | nil => simp [parseLoop, pureRun, hin]
  | cons c cs ih =>
    unfold parseLoop pureRun
    rw [step_eq c h.nd h.ni]
    have hdrop1 : input.drop pre.length = content ++ c :: cs := by rw [hin]; simp
    have hdrop2 : input.drop (pre.length + content.length) = c :: cs := by
      rw [hin, ← List.length_append, List.drop_left]
    have hdrop3 : input.drop (pre.length + content.length + 1) = cs := by
      rw [← List.drop_drop, hdrop2]; rfl
    have hlen : input.length = pre.length + content.length + 1 + cs.length := by
      rw [hin]; simp; omega
    simp only [Bind.bind, Except.bind, Pure.pure, Except.pure]
    by_cases hi : nextSt p.state c = .invalid
    · simp [pureStep, hi]
    rw [if_neg hi]
    by_cases hf : flushes p.state (nextSt p.state c) = true
    · have hf' := hf
      unfold flushes at hf'
      rw [decide_eq_true_eq] at hf'
      rw [if_pos hf']
      have hbd := flush_bd hi hf h.need
      rw [strSlice_ok (by omega) (by omega) (by rw [hdrop1]; exact h.bd)
          (by rw [hdrop2]; exact hbd)]
      have hcont : (input.drop pre.length).take (pre.length + content.length - pre.length) = content := by
        rw [hdrop1, Nat.add_sub_cancel_left, List.take_left]
      simp only [hcont]
      have hfl : flush p.state content p.attrs = .ok (upd p.state content p.attrs) := by
        apply flush_eq h.last
        intro hq
        obtain ⟨t, ht, hb⟩ := h.quote (Or.inl hq)
        refine ⟨t, ht, ?_⟩
        cases t with
        | nil => simp
        | cons d t => simpa using hb
      rw [hfl]
      have hps : pureStep p content c = some (⟨upd p.state content p.attrs, nextSt p.state c⟩, [c]) := by
        simp [pureStep, hi, hf]
      simp only [hps]
      have hlen2 : (pre ++ content).length + [c].length = pre.length + content.length + 1 := by simp
      have hpl : (pre ++ content).length = pre.length + content.length := by simp
      by_cases hd : nextSt p.state c = .done
      · rw [if_pos hd, if_pos hd]
        have hcc := (flush_of_done _ _ hd).2
        rw [strSlice_ok (by omega) (by omega) (by rw [hdrop3]; exact h.safe.1 hcc) (by simp)]
        simp only [hdrop3]
        rw [List.take_of_length_le (by omega)]
        by_cases hb : cs.head? = some (c! '{')
        · rw [if_pos hb, if_pos hb]
          have := ih (pre ++ content) [c] ⟨upd p.state content p.attrs, .start⟩ (by rw [hin]; simp)
            (h.restart hps hd)
          rw [hlen2, hpl] at this
          exact this
        · rw [if_neg hb, if_neg hb, hd]
      · rw [if_neg hd, if_neg hd]
        have := ih (pre ++ content) [c] ⟨upd p.state content p.attrs, nextSt p.state c⟩ (by rw [hin]; simp)
          (h.step hps hd)
        rw [hlen2, hpl] at this
        exact this
    · have hf' := hf
      unfold flushes at hf'
      rw [decide_eq_true_eq] at hf'
      rw [if_neg hf']
      have hps : pureStep p content c = some (⟨p.attrs, nextSt p.state c⟩, content ++ [c]) := by
        simp only [pureStep, hi, hf, if_false]; rfl
      have hd : nextSt p.state c ≠ .done := fun hd => hf (flush_of_done _ _ hd).1
      simp only [hps]
      rw [if_neg hd, if_neg hd]
      have := ih pre (content ++ [c]) ⟨p.attrs, nextSt p.state c⟩ (by rw [hin]; simp) (h.step hps hd)
      have hlen2 : pre.length + (content ++ [c]).length = pre.length + content.length + 1 := by simp; omega
      rw [hlen2] at this
      exact this

theorem Inv.init {attrs : Attributes} {s : Bytes} (hb : Bd s) (hs : Safe s) : Inv ⟨attrs, .start⟩ [] s :=
  ⟨by simp, by simp, by simp [needLast], by simp, by simpa using hb, by simp [needBd], hs⟩

theorem parse_eq {p : Parser} {s : Bytes} (h : Inv p [] s) :
    Parser.parse p s = .ok (pureRun p [] 0 s) := by
  have := parseLoop_eq s [] [] s p (by simp) h
  simpa [Parser.parse] using this

end Jotdown.Attr
