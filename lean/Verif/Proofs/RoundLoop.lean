import Verif.Proofs.RoundItem
/-! # Round trip: blocks one after the other -/
namespace Jotdown.Round
open Jotdown Jotdown.Notation

/-! ## Looseness of lists -/

theorem moves_blank (t pb pl a : Bool) : moves (t, pb, pl) (blankTrace a) = (t, pb || a, pl) := by
  cases a <;> simp [blankTrace, move]

theorem BlksOk_head {b : Blk} {bs : List Blk} (h : BlksOk (b :: bs)) : b.Ok := by
  cases bs <;> simp only [BlksOk] at h <;> exact h.1

theorem BlksOk_tail {b : Blk} {bs : List Blk} (h : BlksOk (b :: bs)) : BlksOk bs := by
  simp only [BlksOk] at h
  exact h.2.2

/-- Induction over the attributes of a block. -/
theorem Blk.rec_attr {P : Blk → Prop} (attr : ∀ w is b, P b → P (.attr w is b)) (other : ∀ b, (∀ w is c, b ≠ .attr w is c) → P b) (b : Blk) : P b :=
  match b with
  | .attr w is b => attr w is b (Blk.rec_attr attr other b)
  | .para _ | .brk | .code .. | .quote _ | .div .. | .list .. | .foot .. | .table .. => other _ (fun _ _ _ h => by cases h)

/-- Is the list still tight, and was it made loose by the last block? -/
def gapStep (x : Bool × Bool) (g : Bool) : Bool × Bool := (x.1 && !g, x.1 && g)

def gapRun (x : Bool × Bool) (gs : List Bool) : Bool × Bool := gs.foldl gapStep x

theorem gapRun_append (x : Bool × Bool) (a b : List Bool) : gapRun x (a ++ b) = gapRun (gapRun x a) b := by simp [gapRun]
theorem gapRun_cons (x : Bool × Bool) (g : Bool) (b : List Bool) : gapRun x (g :: b) = gapRun (gapStep x g) b := rfl

theorem gapRun_first (gs : List Bool) (t pl : Bool) : (gapRun (t, pl) gs).1 = (t && !gs.contains true) := by
  induction gs generalizing t pl with
  | nil => simp [gapRun]
  | cons g gs ih =>
    rw [gapRun_cons, gapStep, ih]
    cases t <;> cases g <;> simp

theorem gapRun_last (gs : List Bool) (g : Bool) (x : Bool × Bool) : (gapRun x (gs ++ [g])).2 = ((gapRun x gs).1 && g) := by
  rw [gapRun_append]; rfl

/-- The state at the end of a list. -/
theorem gapRun_ok {gs : List Bool} (h : true ∈ gs → true ∈ gs.dropLast) : gapRun (true, false) gs = (!gs.contains true, false) := by
  have h1 := gapRun_first gs true false
  have h2 : (gapRun (true, false) gs).2 = false := by
    rcases List.eq_nil_or_concat gs with rfl | ⟨is, g, rfl⟩
    · rfl
    · rw [List.concat_eq_append] at h ⊢
      rw [gapRun_last, gapRun_first]
      cases g with
      | false => simp
      | true =>
        have h := h (by simp)
        rw [List.dropLast_concat] at h
        simp [h]
  rw [Bool.true_and] at h1
  exact Prod.ext h1 h2

theorem move_block (t pb pl : Bool) : move (t, pb, pl) .block = ((gapStep (t, pl) pb).1, false, (gapStep (t, pl) pb).2) := by
  cases t <;> cases pb <;> rfl

/-- A blank line is left after the block. -/
def Blk.left (a : Bool) : Blk → Bool
  | .list _ _ items => a && !lastEnds items
  | .foot .. => a
  | .attr _ _ b => b.left a
  | _ => false

theorem Blk.left_blank (b : Blk) (a : Bool) : (b.left a || (a && !b.keeps)) = (a && !b.hides) := by
  induction b using Blk.rec_attr with
  | attr w is b ih => exact ih
  | other b hb => cases b <;> simp_all [Blk.keeps, Blk.left, Blk.hides]

theorem Blk.not_hides {b : Blk} (h : b.isList = false) : b.hides = false := by
  induction b using Blk.rec_attr with
  | attr w is b ih => exact ih h
  | other b hb => cases b <;> simp_all [Blk.isList, Blk.hides]

/-- A blank line is left after the blocks, `pb` if there are none. -/
def lefts (a : Bool) : List Blk → Bool → Bool
  | [], pb => pb
  | b :: bs, _ => lefts a bs ((!bs.isEmpty || a) && !b.hides)

theorem lefts_end {bs : List Blk} (h : bs ≠ []) (hl : endsList bs = false) (a pb : Bool) : lefts a bs pb = a := by
  induction bs generalizing pb with
  | nil => exact absurd rfl h
  | cons b bs ih =>
    cases bs with
    | nil => simp [lefts, Blk.not_hides hl]
    | cons c bs => rw [lefts]; exact ih (by simp) hl _

theorem gaps_list {b : Blk} (h : b.isList = true) (g : Bool) : ∃ gs, b.gaps g = gs ++ [false] := by
  induction b using Blk.rec_attr generalizing g with
  | attr w is b ih =>
    obtain ⟨gs, e⟩ := ih h false
    exact ⟨g :: gs, by rw [Blk.gaps, e]; rfl⟩
  | other b hb =>
    cases b <;> simp_all [Blk.isList]
    exact ⟨[], rfl⟩

theorem gaps_ends {bs : List Blk} (h : endsList bs = true) (g : Bool) : ∃ gs, blkGaps bs g = gs ++ [false] := by
  induction bs generalizing g with
  | nil => cases h
  | cons b bs ih =>
    cases bs with
    | nil =>
      obtain ⟨gs, e⟩ := gaps_list (b := b) h g
      exact ⟨gs, by simp [blkGaps, e]⟩
    | cons c bs =>
      obtain ⟨gs, e⟩ := ih h (!b.hides)
      exact ⟨b.gaps g ++ gs, by rw [blkGaps, e, List.append_assoc]⟩

mutual
/-- The state of an open list after a block. -/
theorem Blk.moves_gaps (b : Blk) (ho : b.Ok) (a t pb pl : Bool) :
    moves (t, pb, pl) (b.trace a) = ((gapRun (t, pl) (b.gaps pb)).1, b.left a, (gapRun (t, pl) (b.gaps pb)).2) := by
  cases b with
  | para is => exact move_block t pb pl
  | brk => exact move_block t pb pl
  | code n lang ls => exact move_block t pb pl
  | table cap ls => exact move_block t pb pl
  | attr w is b =>
    simp only [Blk.Ok] at ho
    simp only [Blk.trace, moves_cons, move_block, Blk.gaps, gapRun_cons]
    exact Blk.moves_gaps b ho.2.2.2 a _ _ _
  | quote bs =>
    simp only [Blk.Ok] at ho
    simp only [Blk.trace, moves_cons, move_block, Blk.gaps, gapRun_cons]
    exact kids_moves bs ho.2 _ _
  | div n cls bs =>
    simp only [Blk.Ok] at ho
    simp only [Blk.trace, moves_cons, move_block, Blk.gaps, gapRun_cons]
    exact kids_moves bs ho.2.2.1 _ _
  | foot label bs =>
    simp only [Blk.Ok] at ho
    obtain ⟨-, hsp, hk, hend⟩ := ho
    simp only [Blk.trace, moves_cons, move_block, Blk.gaps, gapRun_cons, endTrace, hend, Bool.false_eq_true, if_false, List.append_nil]
    rw [blks_moves bs hk, lefts_end (by rintro rfl; cases hsp) hend]
    rfl
  | list lbs tight items =>
    cases t <;> simp [Blk.trace, move, Blk.gaps, gapRun, gapStep, Blk.left]
theorem kids_moves (bs : List Blk) (ho : BlksOk bs) (t pl : Bool) :
    moves (t, false, pl) (traceL bs false ++ endTrace bs) = ((gapRun (t, pl) (blkGaps bs false)).1, false, (gapRun (t, pl) (blkGaps bs false)).2) := by
  rw [moves_append, blks_moves bs ho]
  cases hl : endsList bs with
  | true =>
    obtain ⟨gs, e⟩ := gaps_ends hl false
    simp [endTrace, hl, move, e, gapRun_last]
  | false =>
    by_cases hne : bs = []
    · subst hne; simp [endTrace, hl, lefts]
    · simp [endTrace, hl, lefts_end hne hl]
theorem blks_moves (bs : List Blk) (ho : BlksOk bs) (a t pb pl : Bool) :
    moves (t, pb, pl) (traceL bs a) = ((gapRun (t, pl) (blkGaps bs pb)).1, lefts a bs pb, (gapRun (t, pl) (blkGaps bs pb)).2) := by
  cases bs with
  | nil => rfl
  | cons b bs =>
    simp only [BlksOk] at ho
    simp only [traceL, moves_append, Blk.moves_gaps b ho.1, moves_blank, Blk.left_blank, blkGaps, gapRun_append, lefts]
    cases bs with
    | nil => simp [traceL, blkGaps, gapRun, lefts]
    | cons c bs =>
      rw [blks_moves (c :: bs) ho.2.2]
      simp
end

/-- The state of an open list after an item. -/
theorem item_moves {it : List Blk} (h : it ≠ []) (ho : BlksOk it) (a t pl : Bool) :
    moves (t, false, pl) (traceL it a ++ endTrace it) = ((gapRun (t, pl) (blkGaps it false)).1, a && !endsList it, (gapRun (t, pl) (blkGaps it false)).2) := by
  rw [moves_append, blks_moves it ho]
  cases hl : endsList it with
  | true =>
    obtain ⟨gs, e⟩ := gaps_ends hl false
    simp [endTrace, hl, move, e, gapRun_last]
  | false => simp [endTrace, hl, lefts_end h hl]

/-! ## The loop over the blocks -/

/-- Parsing the blocks in some lines. -/
inductive Loop (top : Bool) : Block.TP → List Span → Block.TP → Prop
  | nil {p} : Loop top p [] p
  | cons {p p1 p' : Block.TP} {fuel n : Nat} {l : Span} {ls : List Span} (h : Block.TP.parseBlock fuel p (l :: ls) top = .ok (p1, n)) (ht : Loop top p1 ((l :: ls).drop n) p') :
    Loop top p (l :: ls) p'
  | stop {p p1 : Block.TP} {fuel : Nat} {l : Span} {ls : List Span} (h : Block.TP.parseBlock fuel p (l :: ls) top = .ok (p1, 0)) : Loop top p (l :: ls) p1

theorem loop_children {fuel : Nat} {p p' : Block.TP} {ls : List Span} (h : Block.TP.parseChildren fuel p ls = .ok p') : Loop false p ls p' := by
  induction fuel generalizing p ls with
  | zero => simp [Block.TP.parseChildren] at h
  | succ f ih =>
    cases ls with
    | nil => simp only [Block.TP.parseChildren] at h; cases h; exact .nil
    | cons l ls =>
      rw [Block.TP.parseChildren] at h
      obtain ⟨⟨p1, n⟩, g1, g2⟩ := bind_ok h
      exact .cons g1 (ih g2)

theorem loop_top {fuel : Nat} {p p' : Block.TP} {ls : List Span} (h : Block.TP.parseTop fuel p ls = .ok p') : Loop true p ls p' := by
  induction fuel generalizing p ls with
  | zero => simp [Block.TP.parseTop] at h
  | succ f ih =>
    cases ls with
    | nil => simp only [Block.TP.parseTop] at h; cases h; exact .nil
    | cons l ls =>
      rw [Block.TP.parseTop] at h
      obtain ⟨⟨p1, n⟩, g1, g2⟩ := bind_ok h
      simp only at g2
      split at g2
      · rename_i h0
        subst h0
        cases g2
        exact .stop g1
      · exact .cons g1 (ih g2)

theorem Loop.block {top : Bool} {p p' : Block.TP} {ls : List Span} (h : Loop top p ls p') (hne : ls ≠ []) :
    ∃ fuel p1 n, Block.TP.parseBlock fuel p ls top = .ok (p1, n) ∧ (n ≠ 0 → Loop top p1 (ls.drop n) p') := by
  cases h with
  | nil => exact absurd rfl hne
  | cons h ht => exact ⟨_, _, _, h, fun _ => ht⟩
  | stop h => exact ⟨_, _, _, h, fun h => absurd rfl h⟩

theorem Loop.done {top : Bool} {p p' : Block.TP} (h : Loop top p [] p') : p' = p := by
  cases h; rfl

/-! ## The state after blocks -/

/-- A list is open, or nothing is. -/
def Ends (e : Bool) (p : Block.TP) : Prop := if e then Pending p else Calm p

theorem Ends.quiet {e : Bool} {p : Block.TP} (h : Ends e p) : Quiet p := by
  cases e with
  | true => exact Pending.quiet h
  | false => exact Calm.quiet h

/-- From `p` to `p'` with a trace and events. -/
def Goes (p : Block.TP) (tr : List Mk) (Sh : List Block.Event → Prop) (p' : Block.TP) : Prop :=
  ∀ pos, ∃ pos0 E a, Sh E ∧ settle p' pos = al (app (marks (settle p pos0) tr) E) a

theorem Goes.src {p p' : Block.TP} {tr : List Mk} {Sh : List Block.Event → Prop} (h : Goes p tr Sh p') : p'.src = p.src := by
  obtain ⟨pos0, E, a, -, e⟩ := h 0
  have := congrArg Block.TP.src e
  rw [(settle_src _ _).1, al_src, app_src, (marks_facts _ _).1, (settle_src _ _).1] at this
  exact this

theorem Goes.trans {p p1 p2 : Block.TP} {tr1 tr2 : List Mk} {S1 S2 : List Block.Event → Prop} (hq : Quiet p) (h1 : Goes p tr1 S1 p1) (h2 : Goes p1 tr2 S2 p2) :
    Goes p (tr1 ++ tr2) (fun E => ∃ E1 E2, E = E1 ++ E2 ∧ S1 E1 ∧ S2 E2) p2 := by
  intro pos
  obtain ⟨pos1, E2, a2, s2, e2⟩ := h2 pos
  obtain ⟨pos0, E1, a1, s1, e1⟩ := h1 pos1
  refine ⟨pos0, E1 ++ E2, a2, ⟨E1, E2, rfl, s1, s2⟩, ?_⟩
  rw [e2, e1, marks_al, app_al, al_al, marks_app ((hq pos0).marks tr1).near, app_app, marks_append]

theorem Goes.imp {p p1 : Block.TP} {tr : List Mk} {S1 S2 : List Block.Event → Prop} (h : Goes p tr S1 p1) (hi : ∀ E, S1 E → S2 E) : Goes p tr S2 p1 := by
  intro pos
  obtain ⟨pos0, E, a, s, e⟩ := h pos
  exact ⟨pos0, E, a, hi E s, e⟩

theorem exit_al {p p' : Block.TP} {a : Ext} {e : Span} (h : (al p a).exit e = .ok p') : ∃ p1, p.exit e = .ok p1 ∧ p' = al p1 a := by
  unfold Block.TP.exit at h ⊢
  simp only [al_open] at h
  split at h
  · cases h
  · rename_i i rest ho
    obtain ⟨n, h1, h2⟩ := bind_ok h
    cases h2
    have h3 : Block.TP.enterNode p i = .ok n := h1
    refine ⟨_, by simp only [h3, Bind.bind, Except.bind]; rfl, rfl⟩

/-- The end of a container. -/
theorem container_end {q p2 p' : Block.TP} {c : Block.Container} {s e : Span} {bs : List Blk} {a : Bool} {Sh : List Block.Event → Prop} (hq : Near q)
    (hE : Ends (endsList bs) p2) (hg : Goes (q.enter (.container c) s) (traceL bs a) Sh p2) (h : p2.endContainer c e none = .ok p') :
    ∃ E a', Sh E ∧ p' = al (app (marks q (traceL bs a ++ endTrace bs)) (⟨.enter (.container c), s⟩ :: (E ++ [⟨.exit (.container c), e⟩]))) a' := by
  unfold Block.TP.endContainer at h
  simp only [Block.TP.endTerm, Bind.bind, Except.bind] at h
  have h' : (p2.closeInnerList e.start >>= fun p => p.exit e) = .ok p' := h
  obtain ⟨p3, h1, h2⟩ := bind_ok h'
  clear h h'
  have hcalm : Calm (q.enter (.container c) s) := hq.enter _ _
  obtain ⟨pos0, E, a', hs, he⟩ := hg e.start
  rw [hcalm.settle] at he
  have e3 : p3 = al (app (marks (q.enter (.container c) s) (traceL bs a ++ endTrace bs)) E) a' := by
    unfold endTrace
    cases hl : endsList bs with
    | true =>
      rw [hl] at hE
      rw [closeInner_pend hE h1, he, mark_al, mark_app (hcalm.marks _).near, marks_append]
      rfl
    | false =>
      rw [hl] at hE
      have hc : Calm p2 := hE
      rw [closeInner_calm hE h1, ← hc.settle e.start, he]
      simp
  rw [e3] at h2
  obtain ⟨p4, e4, e5⟩ := exit_al h2
  exact ⟨E, a', hs, by rw [e5, container_app hq e4]⟩

end Jotdown.Round
