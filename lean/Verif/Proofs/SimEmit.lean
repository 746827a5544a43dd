import Verif.Proofs.SimEvent
/-! # Emission of a queue -/
namespace Jotdown.Inline
open Jotdown
open Jotdown.Block
open Jotdown.Notation

/-- The effect of emitting an event on the queue. -/
def emitOn (src : Bytes) (rest : List Event) (e : Event) : R (List Event × Option Event) := do
  let r ← ({ IP.new src with events := rest } : IP).emit e
  pure (r.1.events, r.2)

theorem emit_on {p : IP} {rest : List Event} {e : Event} {r : IP × Option Event} (h : ({ p with events := rest } : IP).emit e = .ok r) :
    emitOn p.input.src rest e = .ok (r.1.events, r.2) ∧ r.1 = { p with events := r.1.events } := by
  unfold emitOn
  unfold IP.emit at h ⊢
  split at h
  · split at h
    · cases h
      exact ⟨by rename_i hx; simp only [hx, if_true]; rfl, rfl⟩
    · rename_i hx
      simp only [hx]
      replace h := bind_ok h
      obtain ⟨r1, h1, h⟩ := h
      cases h
      unfold IP.mergeStrEvents at h1 ⊢
      split at h1
      · rename_i hw
        simp only at hw
        simp only [hw, if_true]
        unfold IP.applyWordAttributes at h1 ⊢
        simp only at h1 ⊢
        replace h1 := bind_ok h1
        obtain ⟨s, h2, h1⟩ := h1
        rw [show (IP.new p.input.src).input.src = p.input.src from rfl, h2]
        simp only [bind, Except.bind, Bool.false_eq_true, if_false] at h1 ⊢
        cases hr : rposition isWs s with
        | some i =>
          rw [hr] at h1
          cases h1
          exact ⟨rfl, rfl⟩
        | none =>
          rw [hr] at h1
          simp only at h1 ⊢
          cases hm : (mergeStr e.span rest).2 with
          | nil => rw [hm] at h1; cases h1
          | cons a b =>
            rw [hm] at h1
            simp only at h1 ⊢
            split at h1
            · rename_i hs
              cases h1
              simp only [hs, if_true]
              exact ⟨rfl, trivial⟩
            · rename_i hs
              simp only [hs]
              cases b with
              | nil => cases h1
              | cons x y =>
                simp only at h1 ⊢
                cases hd : dassert (x.kind == .empty) with
                | error z => rw [hd] at h1; cases h1
                | ok z =>
                  rw [hd] at h1
                  cases h1
                  exact ⟨rfl, rfl⟩
      · rename_i hw
        simp only at hw
        simp only [hw]
        cases h1
        exact ⟨rfl, rfl⟩
  · cases h; exact ⟨rfl, rfl⟩
  · cases h; exact ⟨by rename_i k1 k2; first | rfl | (split <;> first | rfl | contradiction), rfl⟩

/-- The events emitted for a queue. -/
inductive Emits (src : Bytes) : List Event → List Event → Prop
  | nil : Emits src [] []
  | skip {e rest rest' es} : emitOn src rest e = .ok (rest', none) → Emits src rest' es → Emits src (e :: rest) es
  | some {e rest rest' x es} : emitOn src rest e = .ok (rest', some x) → Emits src rest' es → Emits src (e :: rest) (x :: es)

theorem Emits.unique {src : Bytes} {q es es' : List Event} (h : Emits src q es) (h' : Emits src q es') : es = es' := by
  induction h generalizing es' with
  | nil => cases h'; rfl
  | skip h1 _ ih =>
    cases h' with
    | skip h2 h3 => rw [h1] at h2; cases h2; exact ih h3
    | some h2 h3 => rw [h1] at h2; cases h2
  | some h1 _ ih =>
    cases h' with
    | skip h2 h3 => rw [h1] at h2; cases h2
    | some h2 h3 => rw [h1] at h2; cases h2; rw [ih h3]

theorem Emits.step {src : Bytes} {e : Event} {rest rest' es : List Event} {o : Option Event} (h : emitOn src rest e = .ok (rest', o)) (h2 : Emits src rest' es) :
    Emits src (e :: rest) (o.toList ++ es) := by
  cases o with
  | none => exact .skip h h2
  | some x => exact .some h h2

theorem Closed.tail {e : Event} {D : List Event} (h : Closed (e :: D)) (hne : D ≠ []) : Closed D := by
  cases D with
  | nil => exact absurd rfl hne
  | cons a b => intro x hx; exact h x (by rw [List.getLast?_cons_cons]; exact hx)

theorem Closed.cons {e : Event} {D : List Event} (h : Closed D) (hne : D ≠ []) : Closed (e :: D) := by
  cases D with
  | nil => exact absurd rfl hne
  | cons a b => intro x hx; exact h x (by rw [List.getLast?_cons_cons] at hx; exact hx)

theorem closed_nil : Closed [] := by intro e h; cases h

/-- Text is merged within what cannot be merged with what follows. -/
theorem mergeStr_app {D : List Event} (hD : Closed D) (hne : D ≠ []) (X : List Event) (sp : Span) :
    mergeStr sp (D ++ X) = ((mergeStr sp D).1, (mergeStr sp D).2 ++ X) ∧ Closed (mergeStr sp D).2 ∧ (mergeStr sp D).2 ≠ [] := by
  induction D generalizing sp with
  | nil => exact absurd rfl hne
  | cons e D ih =>
    rw [List.cons_append]
    unfold mergeStr
    by_cases hk : (e.kind = .str ∨ e.kind = .placeholder) ∧ sp.stop = e.span.start
    · rw [if_pos hk, if_pos hk]
      have hd : D ≠ [] := by
        rintro rfl
        have := hD e rfl
        rcases hk.1 with h | h
        · exact this.1 h
        · exact this.2.1 h
      exact ih (hD.tail hd) hd _
    · rw [if_neg hk, if_neg hk]
      exact ⟨rfl, hD, hne⟩

theorem wordAttrFront_app {D : List Event} (hne : D ≠ []) (X : List Event) : wordAttrFront (D ++ X) = wordAttrFront D := by
  cases D with
  | nil => exact absurd rfl hne
  | cons e D =>
    rw [List.cons_append]
    unfold wordAttrFront
    split
    · rename_i h; cases h; rfl
    · rename_i h1
      split
      · rename_i h; cases h; exact absurd rfl (h1 _ _ _)
      · rfl

/-- Emission from a queue that cannot be merged with what follows. -/
theorem emitOn_app {src : Bytes} {e : Event} {D : List Event} (hD : Closed (e :: D)) (X : List Event) {r : List Event × Option Event} (h : emitOn src D e = .ok r) :
    emitOn src (D ++ X) e = .ok (r.1 ++ X, r.2) ∧ Closed r.1 := by
  unfold emitOn at h ⊢
  replace h := bind_ok h
  obtain ⟨r0, h, h0⟩ := h
  cases h0
  unfold IP.emit at h ⊢
  cases hk : e.kind with
  | str =>
    rw [hk] at h
    simp only at h ⊢
    have hne : D ≠ [] := by
      rintro rfl
      exact (hD e rfl).1 hk
    have hD' := hD.tail hne
    obtain ⟨m1, m2, m3⟩ := mergeStr_app hD' hne X e.span
    rw [wordAttrFront_app hne]
    split at h
    · rename_i hx
      cases h
      simp only [hx, if_true]
      exact ⟨rfl, hD'⟩
    · rename_i hx
      simp only [hx]
      replace h := bind_ok h
      obtain ⟨r1, h1, h⟩ := h
      cases h
      unfold IP.mergeStrEvents at h1 ⊢
      simp only at h1 ⊢
      rw [m1]
      simp only
      rw [wordAttrFront_app m3]
      split at h1
      · rename_i hw
        simp only [hw, if_true]
        unfold IP.applyWordAttributes at h1 ⊢
        simp only at h1 ⊢
        replace h1 := bind_ok h1
        obtain ⟨s, h2, h1⟩ := h1
        rw [h2]
        simp only [bind, Except.bind, Bool.false_eq_true, if_false] at h1 ⊢
        cases hr : rposition isWs s with
        | some i =>
          rw [hr] at h1
          cases h1
          exact ⟨rfl, m2.cons m3⟩
        | none =>
          rw [hr] at h1
          simp only at h1 ⊢
          cases hm : (mergeStr e.span D).2 with
          | nil => rw [hm] at h1; cases h1
          | cons a b =>
            rw [hm] at h1 m2 hw
            simp only [List.cons_append] at h1 ⊢
            have hb : b ≠ [] := by
              rintro rfl
              have := (m2 a rfl).2.2
              unfold wordAttrFront at hw
              split at hw
              · rename_i heq
                cases heq
                exact this _ _ rfl
              · cases hw
            split at h1
            · rename_i hs
              cases h1
              simp only [hs, if_true]
              exact ⟨rfl, m2.tail hb⟩
            · rename_i hs
              simp only [hs]
              cases b with
              | nil => cases h1
              | cons x y =>
                simp only [List.cons_append] at h1 ⊢
                cases hd : dassert (x.kind == .empty) with
                | error z => rw [hd] at h1; cases h1
                | ok z =>
                  rw [hd] at h1
                  cases h1
                  refine ⟨rfl, ?_⟩
                  cases y with
                  | nil =>
                    intro z hz
                    simp at hz
                    subst hz
                    simp
                  | cons y1 y2 =>
                    exact Closed.cons (.cons (.cons ((m2.tail (by simp)).tail (by simp)) (by simp)) (by simp)) (by simp)
      · rename_i hw
        simp only [hw]
        cases h1
        exact ⟨rfl, m2⟩
  | _ =>
    rw [hk] at h
    cases h
    refine ⟨rfl, ?_⟩
    cases D with
    | nil => exact closed_nil
    | cons a b => exact hD.tail (by simp)

theorem Emits.append {src : Bytes} {D es X es' : List Event} (hD : Closed D) (h : Emits src D es) (h' : Emits src X es') : Emits src (D ++ X) (es ++ es') := by
  induction h with
  | nil => exact h'
  | skip h1 _ ih =>
    obtain ⟨h2, h3⟩ := emitOn_app hD X h1
    exact .skip h2 (ih h3)
  | some h1 _ ih =>
    obtain ⟨h2, h3⟩ := emitOn_app hD X h1
    exact .some h2 (ih h3)

def NoStr (l : List Event) : Prop := l.getLast?.any (fun e => e.kind == .str) = false

theorem NoStr.suffix {a b : List Event} (h : NoStr (a ++ b)) : NoStr b := by
  unfold NoStr at *
  cases b with
  | nil => rfl
  | cons x y =>
    rw [List.getLast?_append] at h
    cases hl : (x :: y).getLast? with
    | none => rfl
    | some z => rw [hl] at h; exact h

theorem NoStr.cons {e : Event} {b : List Event} (h : NoStr b) (hne : b ≠ []) : NoStr (e :: b) := by
  cases b with
  | nil => exact absurd rfl hne
  | cons x y => unfold NoStr at *; rw [List.getLast?_cons_cons]; exact h

theorem mergeStr_suffix (D : List Event) (sp : Span) : ∃ pre, D = pre ++ (mergeStr sp D).2 := by
  induction D generalizing sp with
  | nil => exact ⟨[], rfl⟩
  | cons e D ih =>
    unfold mergeStr
    split
    · obtain ⟨pre, h⟩ := ih ⟨sp.start, e.span.stop⟩
      exact ⟨e :: pre, by rw [List.cons_append, ← h]⟩
    · exact ⟨[], rfl⟩

/-- The queue ends in text only if it did before. -/
theorem emit_str {src : Bytes} {e : Event} {D : List Event} {r : List Event × Option Event} (h : emitOn src D e = .ok r)
    (hl : NoStr (e :: D)) : NoStr r.1 := by
  have hD : NoStr D := NoStr.suffix (a := [e]) hl
  obtain ⟨pre, hpre⟩ := mergeStr_suffix D e.span
  have hM : NoStr (mergeStr e.span D).2 := by rw [hpre] at hD; exact hD.suffix
  unfold emitOn at h
  replace h := bind_ok h
  obtain ⟨r0, h, h0⟩ := h
  cases h0
  unfold IP.emit at h
  cases hk : e.kind with
  | str =>
    rw [hk] at h
    simp only at h ⊢
    split at h
    · cases h
      exact hD
    · replace h := bind_ok h
      obtain ⟨r1, h1, h⟩ := h
      cases h
      unfold IP.mergeStrEvents at h1
      simp only at h1 ⊢
      split at h1
      · unfold IP.applyWordAttributes at h1
        simp only at h1 ⊢
        replace h1 := bind_ok h1
        obtain ⟨s, h2, h1⟩ := h1
        cases hr : rposition isWs s with
        | some i =>
          rename_i hw
          rw [hr] at h1
          cases h1
          refine hM.cons ?_
          intro h0
          rw [h0] at hw
          cases hw
        | none =>
          rw [hr] at h1
          simp only at h1 ⊢
          cases hm : (mergeStr e.span D).2 with
          | nil => rw [hm] at h1; cases h1
          | cons a b =>
            rw [hm] at h1 hM
            simp only at h1
            have hb : NoStr b := NoStr.suffix (a := [a]) hM
            split at h1
            · cases h1
              exact hb
            · cases b with
              | nil => cases h1
              | cons x y =>
                simp only at h1 ⊢
                have hy : NoStr y := NoStr.suffix (a := [x]) hb
                cases hd : dassert (x.kind == .empty) with
                | error z => rw [hd] at h1; cases h1
                | ok z =>
                  rw [hd] at h1
                  cases h1
                  cases y with
                  | nil => simp [NoStr]
                  | cons y1 y2 => exact ((hy.cons (by simp)).cons (by simp)).cons (by simp)
      · cases h1
        exact hM
  | _ =>
    rw [hk] at h
    cases h
    exact hD

end Jotdown.Inline
