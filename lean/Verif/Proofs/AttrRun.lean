import Verif.Proofs.Attr
/-! # Helper lemmas: attribute parser as a fold -/
namespace Jotdown.Attr
open Jotdown

/-- One byte, where a finished set may be followed by another. -/
def fstep (x : Parser × Bytes) (c : UInt8) : Option (Parser × Bytes) :=
  pureStep (if x.1.state = .done then ⟨x.1.attrs, .start⟩ else x.1) x.2 c

def frun (x : Parser × Bytes) (cs : Bytes) : Option (Parser × Bytes) := cs.foldlM fstep x

@[simp] theorem frun_nil (x : Parser × Bytes) : frun x [] = some x := rfl
@[simp] theorem frun_cons (x : Parser × Bytes) (c : UInt8) (cs : Bytes) :
    frun x (c :: cs) = (fstep x c).bind (frun · cs) := by
  simp only [frun, List.foldlM_cons]; rfl
theorem frun_append (x : Parser × Bytes) (a b : Bytes) :
    frun x (a ++ b) = (frun x a).bind (frun · b) := by
  simp only [frun, List.foldlM_append]; rfl

theorem pureStep_start_content (attrs : Attributes) (ct ct' : Bytes) (c : UInt8) :
    pureStep ⟨attrs, .start⟩ ct c = pureStep ⟨attrs, .start⟩ ct' c := by
  simp only [pureStep, nextSt, State.step]
  by_cases h : c = c! '{'
  · simp only [h, if_true]; rfl
  · simp [h]

theorem pureStep_start_some {attrs : Attributes} {ct : Bytes} {c : UInt8} {x : Parser × Bytes}
    (h : pureStep ⟨attrs, .start⟩ ct c = some x) : c = c! '{' := by
  simp only [pureStep, nextSt, State.step] at h
  by_cases h' : c = c! '{'
  · exact h'
  · simp [h'] at h

theorem frun_done_start (attrs : Attributes) (ct ct' : Bytes) (cs : Bytes) (h : cs ≠ []) :
    frun (⟨attrs, .done⟩, ct) cs = frun (⟨attrs, .start⟩, ct') cs := by
  cases cs with
  | nil => exact absurd rfl h
  | cons c cs =>
    simp only [frun_cons, fstep]
    simp [pureStep_start_content attrs ct ct' c]

theorem pureStep_state {p q : Parser} {ct ct' : Bytes} {c : UInt8}
    (h : pureStep p ct c = some (q, ct')) : q.state = nextSt p.state c ∧ q.state ≠ .invalid := by
  unfold pureStep at h
  split at h
  · simp at h
  · rename_i hi
    split at h <;>
    · simp only [Option.some.injEq, Prod.mk.injEq] at h
      rw [← h.1]; exact ⟨rfl, hi⟩

theorem pureStep_none_start {attrs : Attributes} {ct : Bytes} {c : UInt8}
    (h : c ≠ c! '{') : pureStep ⟨attrs, .start⟩ ct c = none := by
  simp only [pureStep, nextSt, State.step]
  simp [h]

/-- `pureRun` in terms of the fold. -/
theorem pureRun_of_frun (p : Parser) (ct : Bytes) (pos : Nat) (cs : Bytes) (hp : p.state ≠ .done) :
    match frun (p, ct) cs with
    | some (q, _) => pureRun p ct pos cs = (q, .ok (pos + cs.length))
    | none => ∃ i, i < cs.length ∧ (∃ q ct', frun (p, ct) (cs.take i) = some (q, ct') ∧
        (pureRun p ct pos cs = (q, .ok (pos + i)) ∧ q.state = .done ∨
         pureRun p ct pos cs = (q, .error (pos + i)))) ∧
        frun (p, ct) (cs.take (i + 1)) = none := by
  induction cs generalizing p ct pos with
  | nil => simp [pureRun]
  | cons c cs ih =>
    have hfs : fstep (p, ct) c = pureStep p ct c := by simp [fstep, hp]
    rw [frun_cons, hfs]
    unfold pureRun
    cases hs : pureStep p ct c with
    | none =>
      refine ⟨0, by simp, ⟨p, ct, by simp, Or.inr rfl⟩, ?_⟩
      simp [hfs, hs]
    | some x =>
      obtain ⟨q, ct'⟩ := x
      simp only [Option.bind_some]
      by_cases hd : q.state = .done
      · rw [if_pos hd]
        have hq : q = ⟨q.attrs, .done⟩ := by cases q; simp_all
        cases cs with
        | nil => simp
        | cons d ds =>
          have hne : d :: ds ≠ [] := by simp
          by_cases hb : (d :: ds).head? = some (c! '{')
          · rw [if_pos hb]
            have := ih ⟨q.attrs, .start⟩ ct' (pos + 1) (by simp)
            rw [hq, frun_done_start _ _ ct' _ hne]
            split
            · rename_i r _ hr
              rw [hr] at this
              simp only at this
              rw [this]; simp; omega
            · rename_i hr
              rw [hr] at this
              obtain ⟨i, hi, ⟨r, ct2, hr1, hr2⟩, hr3⟩ := this
              by_cases hi0 : i = 0
              · subst hi0
                exfalso
                simp at hb
                subst hb
                simp [fstep, pureStep, nextSt, State.step] at hr3
                split at hr3 <;> simp at hr3
              refine ⟨i + 1, by simp at hi ⊢; omega, ⟨r, ct2, ?_, ?_⟩, ?_⟩
              · rw [List.take_succ_cons, frun_cons, hfs, hs, Option.bind_some, hq, frun_done_start _ _ ct' _ (by simp [hi0])]
                exact hr1
              · have : pos + (i + 1) = pos + 1 + i := by omega
                rw [this]; exact hr2
              · rw [List.take_succ_cons, frun_cons, hfs, hs, Option.bind_some, hq, frun_done_start _ _ ct' _ (by simp)]
                exact hr3
          · rw [if_neg hb]
            have hd' : d ≠ c! '{' := by simpa using hb
            have hnone : frun (q, ct') (d :: ds) = none := by
              rw [hq, frun_cons]; simp [fstep, pureStep_none_start hd']
            rw [hnone]
            refine ⟨1, by simp, ⟨q, ct', by simp [hfs, hs], Or.inl ⟨rfl, hd⟩⟩, ?_⟩
            rw [List.take_succ_cons, frun_cons, hfs, hs, Option.bind_some, hq]
            simp [fstep, pureStep_none_start hd']
      · rw [if_neg hd]
        have := ih q ct' (pos + 1) hd
        split
        · rename_i r _ hr
          rw [hr] at this
          simp only at this
          rw [this]; simp; omega
        · rename_i hr
          rw [hr] at this
          obtain ⟨i, hi, ⟨r, ct2, hr1, hr2⟩, hr3⟩ := this
          refine ⟨i + 1, by simp; omega, ⟨r, ct2, ?_, ?_⟩, ?_⟩
          · rw [List.take_succ_cons, frun_cons, hfs, hs]; exact hr1
          · have : pos + (i + 1) = pos + 1 + i := by omega
            rw [this]; exact hr2
          · rw [List.take_succ_cons, frun_cons, hfs, hs]; exact hr3

/-! ## `parse` in terms of the fold -/

theorem parseAttributes_some {attrs : Attributes} {s : Bytes} (hb : Bd s) (hs : Safe s)
    {q : Parser} {ct : Bytes} (h : frun (⟨attrs, .start⟩, []) (trimEnd s) = some (q, ct)) :
    parseAttributes attrs s =
      .ok (if q.state = .done then .ok q.attrs else .error (trimEnd s).length) := by
  have ⟨hb', hs'⟩ := trimEnd_bd_safe hb hs
  have h2 := pureRun_of_frun ⟨attrs, .start⟩ [] 0 (trimEnd s) (by simp)
  rw [h] at h2
  simp only [Nat.zero_add] at h2
  unfold parseAttributes
  simp only []
  rw [parse_eq (Inv.init hb' hs'), h2]
  simp only [Bind.bind, Except.bind, true_and]
  split <;> rfl

theorem parseAttributes_none {attrs : Attributes} {s : Bytes} (hb : Bd s) (hs : Safe s)
    (h : frun (⟨attrs, .start⟩, []) (trimEnd s) = none) :
    ∃ i, i < (trimEnd s).length ∧ parseAttributes attrs s = .ok (.error i) ∧
      (∃ q ct, frun (⟨attrs, .start⟩, []) ((trimEnd s).take i) = some (q, ct)) ∧
      frun (⟨attrs, .start⟩, []) ((trimEnd s).take (i + 1)) = none := by
  have ⟨hb', hs'⟩ := trimEnd_bd_safe hb hs
  have h2 := pureRun_of_frun ⟨attrs, .start⟩ [] 0 (trimEnd s) (by simp)
  rw [h] at h2
  obtain ⟨i, hi, ⟨q, ct, h3, h4⟩, h5⟩ := h2
  refine ⟨i, hi, ?_, ⟨q, ct, h3⟩, h5⟩
  unfold parseAttributes
  simp only []
  rw [parse_eq (Inv.init hb' hs')]
  rcases h4 with ⟨h4, h6⟩ | h4
  · rw [h4]
    simp only [Bind.bind, Except.bind, Nat.zero_add]
    rw [if_neg (by omega)]; rfl
  · rw [h4]; simp [Bind.bind, Except.bind, Pure.pure, Except.pure]

theorem parseAttributes_ok_iff {attrs res : Attributes} {s : Bytes} (hb : Bd s) (hs : Safe s) :
    parseAttributes attrs s = .ok (.ok res) ↔
      ∃ ct, frun (⟨attrs, .start⟩, []) (trimEnd s) = some (⟨res, .done⟩, ct) := by
  cases h : frun (⟨attrs, .start⟩, []) (trimEnd s) with
  | none =>
    obtain ⟨i, _, h2, _⟩ := parseAttributes_none hb hs h
    simp [h2]
  | some x =>
    obtain ⟨q, ct⟩ := x
    rw [parseAttributes_some hb hs h]
    cases q with
    | mk a st =>
      by_cases hd : st = .done
      · simp [hd]
      · simp [hd]

theorem frun_state_ne_invalid {x y : Parser × Bytes} {cs : Bytes} (h : frun x cs = some y)
    (hx : x.1.state ≠ .invalid) : y.1.state ≠ .invalid := by
  induction cs generalizing x with
  | nil => simp at h; rwa [← h]
  | cons c cs ih =>
    rw [frun_cons] at h
    cases hs : fstep x c with
    | none => simp [hs] at h
    | some z =>
      rw [hs] at h
      exact ih h (pureStep_state (q := z.1) (ct' := z.2) hs).2

/-- Every valid state can be completed. -/
theorem completion (p : Parser) (ct : Bytes) (hi : p.state ≠ .invalid) :
    ∃ ext, (∀ c ∈ ext, c < 128) ∧ trimEnd ext = ext ∧ (p.state ≠ .done → ext ≠ []) ∧
      ∃ q ct', frun (p, ct) ext = some (q, ct') ∧ q.state = .done := by
  obtain ⟨attrs, st⟩ := p
  cases st
  case invalid => simp at hi
  case done => exact ⟨[], by simp, by simp [trimEnd], by simp, _, _, rfl, rfl⟩
  case start => exact ⟨b! "{}", by decide, by decide, by simp, _, _, rfl, rfl⟩
  case classFirst | identifierFirst | valueFirst =>
    exact ⟨b! "a}", by decide, by decide, by simp, _, _, rfl, rfl⟩
  case key => exact ⟨b! "=a}", by decide, by decide, by simp, _, _, rfl, rfl⟩
  case valueQuoted | valueNewline | valueContinued =>
    exact ⟨b! "\"}", by decide, by decide, by simp, _, _, rfl, rfl⟩
  case valueEscape => exact ⟨b! "a\"}", by decide, by decide, by simp, _, _, rfl, rfl⟩
  all_goals exact ⟨b! "}", by decide, by decide, by simp, _, _, rfl, rfl⟩

/-- The states passed do not depend on attributes and content. -/
theorem frun_states (p p' : Parser) (ct ct' : Bytes) (cs : Bytes) (h : p.state = p'.state) :
    (frun (p, ct) cs).map (·.1.state) = (frun (p', ct') cs).map (·.1.state) := by
  induction cs generalizing p p' ct ct' with
  | nil => simp [h]
  | cons c cs ih =>
    have key : ∀ (r r' : Parser), r.state = r'.state → 
        ((pureStep r ct c).bind (frun · cs)).map (·.1.state) = ((pureStep r' ct' c).bind (frun · cs)).map (·.1.state) := by
      intro r r' hr
      unfold pureStep
      rw [hr]
      split
      · rfl
      · split <;> exact ih _ _ _ _ rfl
    simp only [frun_cons, fstep]
    rw [h]
    split
    · exact key _ _ rfl
    · exact key _ _ h

/-- Earlier elements are kept. -/
theorem upd_prefix {pre attrs : Attributes} {st : State} {ct : Bytes} (h : needLast st → attrs ≠ []) :
    upd st ct (pre ++ attrs) = pre ++ upd st ct attrs := by
  cases st <;> simp_all [upd, needLast, modLast_prefix]

theorem frun_prefix (pre : Attributes) (p : Parser) (ct : Bytes) (cs : Bytes)
    (h : needLast p.state → p.attrs ≠ []) :
    frun (⟨pre ++ p.attrs, p.state⟩, ct) cs =
      (frun (p, ct) cs).map (fun x => (⟨pre ++ x.1.attrs, x.1.state⟩, x.2)) := by
  induction cs generalizing p ct with
  | nil => simp
  | cons c cs ih =>
    have key : ∀ r : Parser, (needLast r.state → r.attrs ≠ []) →
        (pureStep ⟨pre ++ r.attrs, r.state⟩ ct c).bind (frun · cs) =
        ((pureStep r ct c).bind (frun · cs)).map (fun x => (⟨pre ++ x.1.attrs, x.1.state⟩, x.2)) := by
      intro r hr
      unfold pureStep
      simp only
      split
      · rfl
      · rename_i hi
        split
        · simp only [Option.bind_some]
          rw [upd_prefix hr]
          exact ih ⟨upd r.state ct r.attrs, nextSt r.state c⟩ _ (fun hl => upd_ne_nil hr (nextSt_needLast _ _ hl))
        · rename_i hf
          simp only [Option.bind_some]
          refine ih ⟨r.attrs, nextSt r.state c⟩ _ (fun hl => ?_)
          rcases nextSt_flush_key _ _ hl with h1 | h1
          · exact hr h1
          · exact absurd h1 hf
    simp only [frun_cons, fstep]
    by_cases hd : p.state = .done
    · simp only [hd, if_true]
      exact key ⟨p.attrs, .start⟩ (by simp [needLast])
    · simp only [hd, if_false]
      exact key p h

end Jotdown.Attr
