import Verif.Proofs.InlQueue
import Verif.Props.Attr
/-! # Attributes spread over lines -/
namespace Jotdown.Attr
open Jotdown

/-! ## The automaton -/

/-- A finished set may be followed by another. -/
def norm (s : State) : State := if s = .done then .start else s

def sstep (s : State) (c : UInt8) : Option State :=
  if nextSt (norm s) c = .invalid then none else some (nextSt (norm s) c)

def srun (s : State) (cs : Bytes) : Option State := cs.foldlM sstep s

@[simp] theorem srun_nil (s : State) : srun s [] = some s := rfl
@[simp] theorem srun_cons (s : State) (c : UInt8) (cs : Bytes) : srun s (c :: cs) = (sstep s c).bind (srun · cs) := by
  simp only [srun, List.foldlM_cons]; rfl
theorem srun_append (s : State) (a b : Bytes) : srun s (a ++ b) = (srun s a).bind (srun · b) := by
  simp only [srun, List.foldlM_append]; rfl

theorem fstep_sstep (p : Parser) (ct : Bytes) (c : UInt8) : (fstep (p, ct) c).map (·.1.state) = sstep p.state c := by
  unfold fstep sstep norm
  have : (if p.state = .done then (⟨p.attrs, .start⟩ : Parser) else p).state = if p.state = .done then .start else p.state := by
    split <;> rfl
  simp only
  generalize (if p.state = .done then (⟨p.attrs, .start⟩ : Parser) else p) = q at *
  rw [← this]
  unfold pureStep
  split
  · rfl
  · split <;> rfl

theorem frun_srun (p : Parser) (ct cs : Bytes) : (frun (p, ct) cs).map (·.1.state) = srun p.state cs := by
  induction cs generalizing p ct with
  | nil => rfl
  | cons c cs ih =>
    rw [frun_cons, srun_cons, ← fstep_sstep p ct]
    cases fstep (p, ct) c with
    | none => rfl
    | some x => exact ih x.1 x.2

theorem sstep_ne_invalid {s s' : State} {c : UInt8} (h : sstep s c = some s') : s' ≠ .invalid := by
  unfold sstep at h
  split at h
  · simp at h
  · simp only [Option.some.injEq] at h
    subst h; assumption

theorem srun_ne_invalid {s s' : State} {cs : Bytes} (h : srun s cs = some s') (hs : s ≠ .invalid) : s' ≠ .invalid := by
  induction cs generalizing s with
  | nil => simp at h; rwa [← h]
  | cons c cs ih =>
    rw [srun_cons] at h
    cases hx : sstep s c with
    | none => simp [hx] at h
    | some x => rw [hx] at h; exact ih h (sstep_ne_invalid hx)

theorem norm_ne_done (s : State) : norm s ≠ .done := by unfold norm; split <;> simp_all
theorem norm_ne_invalid {s : State} (h : s ≠ .invalid) : norm s ≠ .invalid := by unfold norm; split <;> simp_all
theorem norm_norm (s : State) : norm (norm s) = norm s := by
  have := norm_ne_done s
  generalize norm s = t at *
  simp [norm, this]

theorem srun_norm (s : State) (cs : Bytes) (h : cs ≠ []) : srun (norm s) cs = srun s cs := by
  cases cs with
  | nil => exact absurd rfl h
  | cons c cs => rw [srun_cons, srun_cons, sstep, sstep, norm_norm]

/-- The validator follows the automaton. -/
theorem validatorParse_srun (st : State) (n : Nat) (s : Bytes) (h1 : st ≠ .done) (h2 : st ≠ .invalid) :
    ∃ o v, validatorParse st n s = .ok (o, v) ∧ (o = none → srun st s = some v ∧ v ≠ .done ∧ v ≠ .invalid) ∧
      (∀ m, o = some m → m = 0 ∨ (n < m ∧ m ≤ n + s.length ∧ srun st (s.take (m - n)) = some .done)) := by
  induction s generalizing st n with
  | nil => exact ⟨none, st, rfl, fun _ => ⟨rfl, h1, h2⟩, by simp⟩
  | cons c s ih =>
    have hst : norm st = st := by simp [norm, h1]
    rw [validatorParse_cons, step_eq c h1 h2]
    simp only [Bind.bind, Except.bind]
    by_cases hd : nextSt st c = .done
    · rw [if_pos hd]
      refine ⟨some (n + 1), _, rfl, by simp, ?_⟩
      intro m hm
      simp at hm; subst hm
      refine .inr ⟨by omega, by simp, ?_⟩
      have : n + 1 - n = 1 := by omega
      rw [this]
      simp [sstep, hst, hd]
    · rw [if_neg hd]
      by_cases hi : nextSt st c = .invalid
      · rw [if_pos hi]
        exact ⟨some 0, _, rfl, by simp, fun m hm => by simp at hm; exact .inl hm.symm⟩
      · rw [if_neg hi]
        obtain ⟨o, v, e1, e2, e3⟩ := ih (nextSt st c) (n + 1) hd hi
        refine ⟨o, v, e1, ?_, ?_⟩
        · intro ho
          refine ⟨?_, (e2 ho).2⟩
          rw [srun_cons, sstep, hst, if_neg hi]
          exact (e2 ho).1
        · intro m hm
          rcases e3 m hm with h | ⟨h3, h4, h5⟩
          · exact .inl h
          · refine .inr ⟨by omega, by simp; omega, ?_⟩
            have : m - n = (m - (n + 1)) + 1 := by omega
            rw [this, List.take_succ_cons, srun_cons, sstep, hst, if_neg hi]
            exact h5

/-! ## Parsing line by line -/

/-- Keys consist of name characters. -/
def KeysOk (a : Attributes) : Prop := ∀ e ∈ a, ∀ k, e.1 = .pair k → k.all isName = true

theorem KeysOk.modLast {a : Attributes} (h : KeysOk a) (f : Bytes → Bytes) : KeysOk (modLast a f) := by
  rcases List.eq_nil_or_concat a with rfl | ⟨l, ⟨k, v⟩, rfl⟩
  · exact h
  · rw [List.concat_eq_append, modLast_append]
    intro e he k' hk
    simp only [List.mem_append, List.mem_singleton] at he
    rcases he with he | rfl
    · exact h e (by simp [he]) k' hk
    · exact h (k, v) (by simp) k' hk

theorem KeysOk.upd {st : State} {ct : Bytes} {a : Attributes} (h : KeysOk a) (hk : st = .key → ct.all isName = true) :
    KeysOk (upd st ct a) := by
  have app : ∀ (k : AttrKind) (v : Bytes), (∀ k', k = .pair k' → k'.all isName = true) → KeysOk (a ++ [(k, v)]) := by
    intro k v hkv e he k' hk'
    simp only [List.mem_append, List.mem_singleton] at he
    rcases he with he | rfl
    · exact h e he k' hk'
    · exact hkv k' hk'
  cases st
  all_goals simp only [Attr.upd]
  all_goals first
    | exact h
    | exact h.modLast _
    | exact app _ _ (fun k' hk' => by cases hk' <;> exact hk rfl)

theorem nextSt_key (st : State) (c : UInt8) : nextSt st c = .key → isName c = true ∧ (st = .key ∨ st = .whitespace) := by
  revert c; apply ofFin; cases st <;> decide +kernel

/-- Invariant of the parser between bytes. -/
structure PInv (p : Parser) (ct : Bytes) : Prop where
  last : needLast p.state → p.attrs ≠ []
  keys : KeysOk p.attrs
  key : p.state = .key → ct.all isName = true

theorem PInv.step {p q : Parser} {ct ct' : Bytes} {c : UInt8} (h : PInv p ct) (hs : pureStep p ct c = some (q, ct')) : PInv q ct' := by
  unfold pureStep at hs
  split at hs
  · simp at hs
  rename_i hi
  split at hs
  · rename_i hf
    simp only [Option.some.injEq, Prod.mk.injEq] at hs
    obtain ⟨rfl, rfl⟩ := hs
    refine ⟨fun hl => upd_ne_nil h.last (nextSt_needLast _ _ hl), h.keys.upd h.key, ?_⟩
    intro hk
    have := (nextSt_key _ _ hk).1
    simp [this]
  · rename_i hf
    simp only [Option.some.injEq, Prod.mk.injEq] at hs
    obtain ⟨rfl, rfl⟩ := hs
    refine ⟨?_, h.keys, ?_⟩
    · intro hl
      rcases nextSt_flush_key _ _ hl with h1 | h1
      · exact h.last h1
      · exact absurd h1 hf
    · intro hk
      have hk' := nextSt_key _ _ hk
      simp only at hk
      rcases hk'.2 with h1 | h1
      · simp [h.key h1, hk'.1]
      · exfalso
        apply hf
        rw [h1] at hk ⊢
        rw [hk]; rfl

theorem PInv.run {p q : Parser} {ct ct' cs : Bytes} (h : PInv p ct) (hs : frun (p, ct) cs = some (q, ct')) : PInv q ct' := by
  induction cs generalizing p ct with
  | nil => simp at hs; obtain ⟨rfl, rfl⟩ := hs; exact h
  | cons c cs ih =>
    rw [frun_cons] at hs
    cases hx : fstep (p, ct) c with
    | none => simp [hx] at hs
    | some x =>
      rw [hx] at hs
      refine ih (PInv.step (p := if p.state = .done then ⟨p.attrs, .start⟩ else p) (ct := ct) ?_ hx) hs
      split
      · exact ⟨by simp [needLast], h.keys, by simp⟩
      · exact h

/-- The state can occur at the start of a line. -/
def LineSt (s : State) : Prop := s ≠ .valueQuoted ∧ s ≠ .valueEscape ∧ s ≠ .done

theorem nextSt_newline (st : State) : nextSt st 10 = .invalid ∨ LineSt (nextSt st 10) := by
  cases st <;> simp [LineSt] <;> decide +kernel

theorem srun_newline {s s' : State} {a : Bytes} (h : srun s (a ++ [10]) = some s') : LineSt s' := by
  rw [srun_append] at h
  cases hx : srun s a with
  | none => simp [hx] at h
  | some x =>
    simp only [hx, Option.bind_some, srun_cons] at h
    unfold sstep at h
    split at h
    · simp at h
    · rename_i hi
      simp at h
      subst h
      exact (nextSt_newline _).resolve_left hi

/-- One line. -/
theorem parse_line {p : Parser} {t : Bytes} {s : State} (hp : PInv p []) (hi : p.state ≠ .invalid) (hl : t ≠ [] → LineSt p.state)
    (hb : Bd t) (hs : Safe t) (hr : srun p.state t = some s) :
    ∃ q n, p.parse t = .ok (q, .ok n) ∧ PInv q [] ∧ q.state = s ∧ n = t.length := by
  by_cases ht : t = []
  · subst ht
    simp at hr
    exact ⟨p, 0, rfl, hp, hr, rfl⟩
  · have hl := hl ht
    have hinv : Inv p [] t := ⟨hl.2.2, hi, hp.last, fun h => absurd h (by simp [hl.1, hl.2.1]), by simpa using hb, fun _ => hb, hs⟩
    rw [← frun_srun p []] at hr
    cases hx : frun (p, []) t with
    | none => simp [hx] at hr
    | some x =>
      obtain ⟨q, ct⟩ := x
      rw [hx] at hr
      have := pureRun_of_frun p [] 0 t hl.2.2
      rw [hx] at this
      simp only at this
      simp at hr
      refine ⟨q, 0 + t.length, ?_, ?_, hr, by simp⟩
      · rw [parse_eq hinv, this]
      · have := hp.run hx
        exact ⟨this.last, this.keys, by simp⟩

end Jotdown.Attr
