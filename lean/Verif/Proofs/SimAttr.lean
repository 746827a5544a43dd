import Verif.Proofs.SimDef
/-! # Attributes in parsers that read the same text -/
namespace Jotdown.Inline
open Jotdown

variable {D : List Event} {E : Nat} {m : Mode}

/-! ## The loop -/

def AttrScan.ty (t : ElemTy) (s : AttrScan) : AttrScan := { s with state := { s.state with elemTy := t } }

theorem attrLoop_succ (src : Bytes) (ahead : List Span) (complete : Bool) (fuel : Nat) (s : AttrScan) (res : Option Nat) :
    attrLoop src ahead complete (fuel + 1) s res =
    match res with
    | some len =>
      if len = 0 then .ok (s, false)
      else do
        let tail ← strSlice src (s.lineStart + len) src.length
        if tail.head? = some (c! '{') then do
          let part ← strSlice src (s.lineStart + len) s.lineEnd
          let r ← Attr.validatorParse .start 0 part
          attrLoop src ahead complete fuel
            { s with state := { s.state with validLines := s.lineNext, endAttr := s.lineStart + len, validator := r.2 }, lineStart := s.lineStart + len } r.1
        else pure ({ s with state := { s.state with validLines := s.lineNext, endAttr := s.lineStart + len } }, false)
    | none =>
      match ahead[s.lineNext]? with
      | some l => do
        let part ← strSlice src l.start l.stop
        let r ← Attr.validatorParse s.state.validator 0 part
        attrLoop src ahead complete fuel
          { state := { s.state with validator := r.2 }, lineNext := s.lineNext + 1, lineStart := l.start, lineEnd := l.stop } r.1
      | none => .ok (s, !complete) := rfl

/-- The element does not matter. -/
theorem attrLoop_ty (src : Bytes) (ahead : List Span) (c : Bool) (t : ElemTy) : ∀ (fuel : Nat) (s : AttrScan) (res : Option Nat) (s1 : AttrScan) (b : Bool),
    attrLoop src ahead c fuel s res = .ok (s1, b) → attrLoop src ahead c fuel (s.ty t) res = .ok (s1.ty t, b) := by
  intro fuel
  induction fuel with
  | zero => intro s res s1 b h; cases h
  | succ fuel ih =>
    intro s res s1 b h
    rw [attrLoop_succ] at h ⊢
    cases res with
    | some len =>
      simp only at h ⊢
      by_cases hl : len = 0
      · rw [if_pos hl] at h ⊢
        cases h; rfl
      · rw [if_neg hl] at h ⊢
        obtain ⟨tail, h1, h⟩ := bind_ok h
        simp only [AttrScan.ty, h1, bind, Except.bind]
        by_cases ht : tail.head? = some (c! '{')
        · rw [if_pos ht] at h ⊢
          obtain ⟨part, h2, h⟩ := bind_ok h
          obtain ⟨r, h3, h⟩ := bind_ok h
          simp only [h2, h3]
          exact ih _ _ _ _ h
        · rw [if_neg ht] at h ⊢
          cases h; rfl
    | none =>
      simp only at h ⊢
      cases hx : ahead[s.lineNext]? with
      | some l =>
        have hx' : ahead[(s.ty t).lineNext]? = some l := hx
        simp only [hx, hx'] at h ⊢
        obtain ⟨part, h2, h⟩ := bind_ok h
        obtain ⟨r, h3, h⟩ := bind_ok h
        simp only [AttrScan.ty, h2, h3, bind, Except.bind]
        exact ih _ _ _ _ h
      | none =>
        have hx' : ahead[(s.ty t).lineNext]? = none := hx
        simp only [hx, hx'] at h ⊢
        cases h; rfl

/-- Where the scan is. -/
structure ScanOk (ahead : List Span) (e0 : Nat) (s : AttrScan) : Prop where
  next : s.lineNext ≤ ahead.length
  zero : s.lineNext = 0 → s.lineEnd = e0
  pos : ∀ l, 0 < s.lineNext → ahead[s.lineNext - 1]? = some l → s.lineEnd = l.stop

theorem attrLoop_scan (src : Bytes) (ahead : List Span) (c : Bool) (e0 : Nat) : ∀ (fuel : Nat) (s : AttrScan) (res : Option Nat) (s1 : AttrScan) (b : Bool),
    attrLoop src ahead c fuel s res = .ok (s1, b) → ScanOk ahead e0 s → ScanOk ahead e0 s1 := by
  intro fuel
  induction fuel with
  | zero => intro s res s1 b h; cases h
  | succ fuel ih =>
    intro s res s1 b h hs
    rw [attrLoop_succ] at h
    cases res with
    | some len =>
      simp only at h
      by_cases hl : len = 0
      · rw [if_pos hl] at h
        cases h; exact hs
      · rw [if_neg hl] at h
        obtain ⟨tail, h1, h⟩ := bind_ok h
        by_cases ht : tail.head? = some (c! '{')
        · rw [if_pos ht] at h
          obtain ⟨part, h2, h⟩ := bind_ok h
          obtain ⟨r, h3, h⟩ := bind_ok h
          exact ih _ _ _ _ h ⟨hs.next, hs.zero, hs.pos⟩
        · rw [if_neg ht] at h
          cases h; exact ⟨hs.next, hs.zero, hs.pos⟩
    | none =>
      simp only at h
      cases hx : ahead[s.lineNext]? with
      | some l =>
        simp only [hx] at h
        obtain ⟨part, h2, h⟩ := bind_ok h
        obtain ⟨r, h3, h⟩ := bind_ok h
        have := (List.getElem?_eq_some_iff.1 hx).1
        refine ih _ _ _ _ h ⟨this, by simp, ?_⟩
        intro l' _ hl'
        simp only [Nat.add_sub_cancel] at hl'
        rw [hx] at hl'
        cases hl'; rfl
      | none =>
        simp only [hx] at h
        cases h; exact hs

theorem attrLoop_valid (src : Bytes) (ahead : List Span) (c : Bool) : ∀ (fuel : Nat) (s : AttrScan) (res : Option Nat) (s1 : AttrScan) (b : Bool),
    attrLoop src ahead c fuel s res = .ok (s1, b) → (s.state.validLines ≤ s.lineNext → s1.state.validLines ≤ s1.lineNext) ∧ (c = true → b = false) := by
  intro fuel
  induction fuel with
  | zero => intro s res s1 b h; cases h
  | succ fuel ih =>
    intro s res s1 b h
    rw [attrLoop_succ] at h
    cases res with
    | some len =>
      simp only at h
      by_cases hl : len = 0
      · rw [if_pos hl] at h
        cases h; exact ⟨fun hs => hs, fun _ => rfl⟩
      · rw [if_neg hl] at h
        obtain ⟨tail, h1, h⟩ := bind_ok h
        by_cases ht : tail.head? = some (c! '{')
        · rw [if_pos ht] at h
          obtain ⟨part, h2, h⟩ := bind_ok h
          obtain ⟨r, h3, h⟩ := bind_ok h
          exact ⟨fun _ => (ih _ _ _ _ h).1 (Nat.le_refl _), (ih _ _ _ _ h).2⟩
        · rw [if_neg ht] at h
          cases h; exact ⟨fun _ => Nat.le_refl _, fun _ => rfl⟩
    | none =>
      simp only at h
      cases hx : ahead[s.lineNext]? with
      | some l =>
        simp only [hx] at h
        obtain ⟨part, h2, h⟩ := bind_ok h
        obtain ⟨r, h3, h⟩ := bind_ok h
        exact ⟨fun hs => (ih _ _ _ _ h).1 (Nat.le_succ_of_le hs), (ih _ _ _ _ h).2⟩
      | none =>
        simp only [hx] at h
        cases h; exact ⟨fun hs => hs, fun hc => by rw [hc]; rfl⟩

/-- Knowing that there are no more lines only matters at the end. -/
theorem attrLoop_complete (src : Bytes) (ahead : List Span) : ∀ (fuel : Nat) (s : AttrScan) (res : Option Nat) (s1 s2 : AttrScan) (b1 b2 : Bool),
    attrLoop src ahead true fuel s res = .ok (s1, b1) → attrLoop src ahead false fuel s res = .ok (s2, b2) →
    s2 = s1 ∧ b1 = false ∧ (b2 = true → ahead.length ≤ s1.lineNext) := by
  intro fuel
  induction fuel with
  | zero => intro s res s1 s2 b1 b2 h; cases h
  | succ fuel ih =>
    intro s res s1 s2 b1 b2 h h'
    rw [attrLoop_succ] at h h'
    cases res with
    | some len =>
      simp only at h h'
      by_cases hl : len = 0
      · rw [if_pos hl] at h h'
        cases h; cases h'; exact ⟨rfl, rfl, by simp⟩
      · rw [if_neg hl] at h h'
        obtain ⟨tail, h1, h⟩ := bind_ok h
        obtain ⟨tail', h1', h'⟩ := bind_ok h'
        rw [h1] at h1'; cases h1'
        by_cases ht : tail.head? = some (c! '{')
        · rw [if_pos ht] at h h'
          obtain ⟨part, h2, h⟩ := bind_ok h
          obtain ⟨r, h3, h⟩ := bind_ok h
          obtain ⟨part', h2', h'⟩ := bind_ok h'
          rw [h2] at h2'; cases h2'
          obtain ⟨r', h3', h'⟩ := bind_ok h'
          rw [h3] at h3'; cases h3'
          exact ih _ _ _ _ _ _ h h'
        · rw [if_neg ht] at h h'
          cases h; cases h'; exact ⟨rfl, rfl, by simp⟩
    | none =>
      simp only at h h'
      cases hx : ahead[s.lineNext]? with
      | some l =>
        simp only [hx] at h h'
        obtain ⟨part, h2, h⟩ := bind_ok h
        obtain ⟨r, h3, h⟩ := bind_ok h
        obtain ⟨part', h2', h'⟩ := bind_ok h'
        rw [h2] at h2'; cases h2'
        obtain ⟨r', h3', h'⟩ := bind_ok h'
        rw [h3] at h3'; cases h3'
        exact ih _ _ _ _ _ _ h h'
      | none =>
        simp only [hx] at h h'
        cases h; cases h'
        exact ⟨rfl, rfl, fun _ => List.getElem?_eq_none_iff.1 hx⟩

/-- The scan with an empty line that is read at the end. -/
def AttrScan.eps (E : Nat) (s : AttrScan) : AttrScan := { s with lineNext := s.lineNext + 1, lineStart := E, lineEnd := E }

theorem strSlice_empty {src : Bytes} {n : Nat} {r : Bytes} (h : strSlice src n n = .ok r) : r = [] := by
  unfold strSlice at h
  split at h
  · simp at h; exact h
  · cases h

/-- An empty line does not matter. -/
theorem attrLoop_eps (src : Bytes) (ahead : List Span) : ∀ (fuel fuel' : Nat) (s : AttrScan) (res : Option Nat) (s1 s2 : AttrScan) (b1 b2 : Bool),
    attrLoop src ahead true fuel s res = .ok (s1, b1) → attrLoop src (ahead ++ [⟨E, E⟩]) true fuel' s res = .ok (s2, b2) → s.lineNext ≤ ahead.length →
    b1 = false ∧ b2 = false ∧ ((s2 = s1 ∧ s1.lineNext ≤ ahead.length) ∨ (s1.lineNext = ahead.length ∧ s2 = s1.eps E)) := by
  intro fuel
  induction fuel with
  | zero => intro _ s res s1 s2 b1 b2 h; cases h
  | succ fuel ih =>
    intro fuel' s res s1 s2 b1 b2 h h' hle
    cases fuel' with
    | zero => cases h'
    | succ fuel' =>
    rw [attrLoop_succ] at h h'
    cases res with
    | some len =>
      simp only at h h'
      by_cases hl : len = 0
      · rw [if_pos hl] at h h'
        cases h; cases h'; exact ⟨rfl, rfl, .inl ⟨rfl, hle⟩⟩
      · rw [if_neg hl] at h h'
        obtain ⟨tail, h1, h⟩ := bind_ok h
        obtain ⟨tail', h1', h'⟩ := bind_ok h'
        rw [h1] at h1'; cases h1'
        by_cases ht : tail.head? = some (c! '{')
        · rw [if_pos ht] at h h'
          obtain ⟨part, h2, h⟩ := bind_ok h
          obtain ⟨r, h3, h⟩ := bind_ok h
          obtain ⟨part', h2', h'⟩ := bind_ok h'
          rw [h2] at h2'; cases h2'
          obtain ⟨r', h3', h'⟩ := bind_ok h'
          rw [h3] at h3'; cases h3'
          exact ih _ _ _ _ _ _ _ h h' hle
        · rw [if_neg ht] at h h'
          cases h; cases h'; exact ⟨rfl, rfl, .inl ⟨rfl, hle⟩⟩
    | none =>
      simp only at h h'
      cases hx : ahead[s.lineNext]? with
      | some l =>
        have hlt := (List.getElem?_eq_some_iff.1 hx).1
        have hx' : (ahead ++ [(⟨E, E⟩ : Span)])[s.lineNext]? = some l := by rw [List.getElem?_append_left hlt]; exact hx
        simp only [hx] at h
        simp only [hx'] at h'
        obtain ⟨part, h2, h⟩ := bind_ok h
        obtain ⟨r, h3, h⟩ := bind_ok h
        obtain ⟨part', h2', h'⟩ := bind_ok h'
        rw [h2] at h2'; cases h2'
        obtain ⟨r', h3', h'⟩ := bind_ok h'
        rw [h3] at h3'; cases h3'
        exact ih _ _ _ _ _ _ _ h h' hlt
      | none =>
        have hn := List.getElem?_eq_none_iff.1 hx
        have he : s.lineNext = ahead.length := by omega
        have hx' : (ahead ++ [(⟨E, E⟩ : Span)])[s.lineNext]? = some ⟨E, E⟩ := by rw [he]; simp
        simp only [hx] at h
        simp only [hx'] at h'
        cases h
        obtain ⟨part', h2', h'⟩ := bind_ok h'
        cases strSlice_empty h2'
        obtain ⟨r', h3', h'⟩ := bind_ok h'
        cases h3'
        cases fuel' with
        | zero => cases h'
        | succ fuel' =>
          rw [attrLoop_succ] at h'
          have hx2 : (ahead ++ [(⟨E, E⟩ : Span)])[s.lineNext + 1]? = none := by rw [he]; simp
          simp only [hx2] at h'
          cases h'
          exact ⟨rfl, rfl, .inr ⟨he, rfl⟩⟩

/-! ## Popping lines -/

structure Popped (i : Input) (n : Nat) (i' : Input) : Prop where
  le : n ≤ i.ahead.length
  ahead : i'.ahead = i.ahead.drop n
  src : i'.src = i.src
  complete : i'.complete = i.complete
  zero : n = 0 → i'.spanLine = i.spanLine
  pos : ∀ l, 0 < n → i.ahead[n - 1]? = some l → i'.spanLine = l

theorem setCurrentLine_eq {i i' : Input} {l : Span} (h : i.setCurrentLine l = .ok i') : i'.src = i.src ∧ i'.complete = i.complete ∧ i'.ahead = i.ahead ∧
    i'.spanLine = l ∧ i'.span = ⟨l.start, l.start⟩ ∧ i'.lexer.verbatim = false := by
  unfold Input.setCurrentLine at h
  obtain ⟨s, h1, h⟩ := bind_ok h
  cases h
  exact ⟨rfl, rfl, rfl, rfl, rfl, rfl⟩

theorem popLines_eq : ∀ (n : Nat) {i i' : Input}, i.popLines n = .ok i' → Popped i n i' := by
  intro n
  induction n with
  | zero => intro i i' h; cases h; exact ⟨Nat.zero_le _, rfl, rfl, rfl, fun _ => rfl, fun _ h => absurd h (Nat.lt_irrefl _)⟩
  | succ n ih =>
    intro i i' h
    unfold Input.popLines at h
    cases ha : i.ahead with
    | nil => rw [ha] at h; cases h
    | cons l rest =>
      rw [ha] at h
      simp only at h
      obtain ⟨j, h1, h⟩ := bind_ok h
      obtain ⟨e1, e2, e3, e4, -⟩ := setCurrentLine_eq h1
      have := ih h
      refine ⟨?_, ?_, by rw [this.src, e1], by rw [this.complete, e2], by simp, ?_⟩
      · have := this.le; rw [e3] at this; rw [ha]; simp only [List.length_cons]; simp only at this; omega
      · rw [this.ahead, e3, ha]; rfl
      · intro l' _ hl'
        cases n with
        | zero =>
          rw [ha] at hl'
          simp at hl'
          rw [this.zero rfl, e4, hl']
        | succ n =>
          refine this.pos l' (by omega) ?_
          rw [e3]
          rw [ha] at hl'
          simpa using hl'

/-- The same lines are popped. -/
theorem LinesRel.pop_same {i j i' j' : Input} {n : Nat} (h : LinesRel E .same i j) (h1 : i.popLines n = .ok i') (h2 : j.popLines n = .ok j') : LinesRel E .same i' j' := by
  have p1 := popLines_eq n h1
  have p2 := popLines_eq n h2
  obtain ⟨e1, e2, e3⟩ := h
  refine ⟨by rw [p1.complete, p2.complete, e1], by rw [p1.ahead, p2.ahead, e2], ?_⟩
  cases n with
  | zero => rw [p1.zero rfl, p2.zero rfl, e3]
  | succ n =>
    have hl := p1.le
    have hx : i.ahead[n + 1 - 1]? = some i.ahead[n] := List.getElem?_eq_getElem (by omega)
    rw [p1.pos _ (by omega) hx, p2.pos _ (by omega) (by rw [e2]; exact hx)]

theorem lastStop_pop {i i' : Input} {n : Nat} (h1 : i.popLines n = .ok i') : i'.lastStop = i.lastStop := by
  have p1 := popLines_eq n h1
  unfold Input.lastStop
  rw [p1.ahead]
  cases n with
  | zero => rw [p1.zero rfl]; rfl
  | succ n =>
    have hl := p1.le
    by_cases hn : n + 1 = i.ahead.length
    · have hx : i.ahead[n + 1 - 1]? = some i.ahead[n] := List.getElem?_eq_getElem (by omega)
      have hg : i.ahead.getLast? = some i.ahead[n] := by rw [List.getLast?_eq_getElem?, ← hn]; exact hx
      rw [p1.pos _ (by omega) hx, hg, hn, List.drop_length]
      rfl
    · rw [List.getLast?_drop]
      rw [if_neg (by omega)]
      cases hg : i.ahead.getLast? with
      | none => rw [List.getLast?_eq_none_iff] at hg; rw [hg] at hl; simp at hl
      | some l => rfl

theorem LinesRel.pop_pre {i j i' j' : Input} {n : Nat} (h : LinesRel E .pre i j) (h1 : i.popLines n = .ok i') (h2 : j.popLines n = .ok j') : LinesRel E .pre i' j' := by
  obtain ⟨e1, e2, e3, e4, e5⟩ := h
  have p1 := popLines_eq n h1
  have p2 := popLines_eq n h2
  refine ⟨by rw [p1.complete, e1], by rw [p2.complete, e2], by rw [p1.ahead, p2.ahead, e3], ?_, by rw [lastStop_pop h1, e5]⟩
  cases n with
  | zero => rw [p1.zero rfl, p2.zero rfl, e4]
  | succ n =>
    have hl := p1.le
    have hx : i.ahead[n + 1 - 1]? = some i.ahead[n] := List.getElem?_eq_getElem (by omega)
    rw [p1.pos _ (by omega) hx, p2.pos _ (by omega) (by rw [e3]; exact hx)]

theorem LinesRel.pop_post {i j i' j' : Input} {n : Nat} (h : LinesRel E .post i j) (h1 : i.popLines n = .ok i') (h2 : j.popLines n = .ok j') : LinesRel E .post i' j' := by
  obtain ⟨e1, e2, e3, e4⟩ := h
  have p1 := popLines_eq n h1
  have p2 := popLines_eq n h2
  refine ⟨by rw [p1.complete, e1], by rw [p2.complete, e2], by rw [lastStop_pop h1, e3], ?_⟩
  have hl := p1.le
  rcases e4 with ⟨e4, e5⟩ | ⟨e4, e5, e6⟩
  · left
    refine ⟨by rw [p1.ahead, p2.ahead, e4, List.drop_append_of_le_length hl], ?_⟩
    cases n with
    | zero => rw [p1.zero rfl, p2.zero rfl, e5]
    | succ n =>
      have hx : i.ahead[n + 1 - 1]? = some i.ahead[n] := List.getElem?_eq_getElem (by omega)
      rw [p1.pos _ (by omega) hx, p2.pos _ (by omega) (by rw [e4, List.getElem?_append_left (by omega)]; exact hx)]
  · right
    rw [e5] at hl
    simp at hl
    subst hl
    exact ⟨by rw [p2.ahead, e4]; rfl, by rw [p1.ahead, e5]; rfl, by rw [p2.zero rfl, e6]⟩

/-- All lines are popped, including the empty one. -/
theorem LinesRel.pop_eps {i j i' j' : Input} {n : Nat} (h : LinesRel E .post i j) (hn : n = i.ahead.length) (h1 : i.popLines n = .ok i')
    (h2 : j.popLines (n + 1) = .ok j') : LinesRel E .post i' j' := by
  obtain ⟨e1, e2, e3, e4⟩ := h
  have p1 := popLines_eq n h1
  have p2 := popLines_eq (n + 1) h2
  refine ⟨by rw [p1.complete, e1], by rw [p2.complete, e2], by rw [lastStop_pop h1, e3], ?_⟩
  have hl := p2.le
  rcases e4 with ⟨e4, e5⟩ | ⟨e4, e5, e6⟩
  · right
    refine ⟨by rw [p2.ahead, e4, hn]; simp, by rw [p1.ahead, hn]; simp, ?_⟩
    rw [p2.pos ⟨E, E⟩ (by omega) (by rw [e4, hn]; simp)]
  · rw [e4] at hl
    simp at hl

/-! ## Attaching attributes -/

theorem splitBang_app {es : List Event} {e : Nat} {op : Event} {t : Bytes} (he : e ≤ es.length) :
    (splitBang (D ++ es) (e + D.length) op t).1 = D ++ (splitBang es e op t).1 ∧ (splitBang (D ++ es) (e + D.length) op t).2 = (splitBang es e op t).2 + D.length := by
  unfold splitBang
  split
  · refine ⟨?_, by simp only; omega⟩
    simp only
    have h1 : (D ++ es).take (e + D.length) = D ++ es.take e := by
      rw [List.take_append, List.take_of_length_le (by omega), Nat.add_sub_cancel]
    have h2 : (D ++ es).drop (e + D.length) = es.drop e := by
      rw [List.drop_append, List.drop_of_length_le (by omega), Nat.add_sub_cancel]; rfl
    rw [h1, h2, List.append_assoc, show e + D.length + 2 = (e + 2) + D.length by omega, set_app]
  · exact ⟨rfl, rfl⟩

theorem attachSpan_app {src : Bytes} {es r r' : List Event} {e : Nat} {op : Event} (he : e ≤ es.length) (h : attachSpan src es e op = .ok r)
    (h' : attachSpan src (D ++ es) (e + D.length) op = .ok r') : r' = D ++ r := by
  unfold attachSpan at h h'
  by_cases hk : op.kind = .str
  · rw [if_pos hk] at h h'
    obtain ⟨t, h1, h⟩ := bind_ok h
    obtain ⟨t', h1', h'⟩ := bind_ok h'
    rw [h1] at h1'; cases h1'
    obtain ⟨a, h2, h⟩ := bind_ok h
    obtain ⟨a', h2', h'⟩ := bind_ok h'
    rw [(splitBang_app he).1, (splitBang_app he).2, show (splitBang es e op t).2 + D.length + 1 = ((splitBang es e op t).2 + 1) + D.length by omega] at h2'
    cases setKind_app h2 h2'
    obtain ⟨l, h3, h⟩ := bind_ok h
    obtain ⟨l', h3', h'⟩ := bind_ok h'
    cases last_app h3 h3'
    exact setKind_app h h'
  · rw [if_neg hk] at h h'
    cases h; cases h'; rfl

theorem attachContainer_sim {p q p' q' : IP} (h : Sim D E m p q) {a : Event} {e : Nat} (h1 : p.attachContainer a e = .ok p')
    (h2 : q.attachContainer a (e + D.length) = .ok q') : Sim D E m p' q' := by
  unfold IP.attachContainer at h1 h2
  rw [h.events, h.inp.span, h.inp.src, set_app, show e + D.length + 1 = (e + 1) + D.length by omega] at h2
  rw [idx_app, idx_app] at h2
  obtain ⟨x, g1, h1⟩ := bind_ok h1
  obtain ⟨x', g1', h2⟩ := bind_ok h2
  obtain ⟨op, g2, h1⟩ := bind_ok h1
  obtain ⟨op', g2', h2⟩ := bind_ok h2
  rw [g2] at g2'; cases g2'
  obtain ⟨es, g3, h1⟩ := bind_ok h1
  obtain ⟨es', g3', h2⟩ := bind_ok h2
  have he : e ≤ (p.events.set e a).length := by
    unfold idx at g2
    cases hx : (p.events.set e a)[e + 1]? with
    | none => rw [hx] at g2; cases g2
    | some y => have := (List.getElem?_eq_some_iff.1 hx).1; omega
  cases attachSpan_app he g3 g3'
  obtain ⟨l, g4, h1⟩ := bind_ok h1
  obtain ⟨l', g4', h2⟩ := bind_ok h2
  cases last_app g4 g4'
  obtain ⟨es2, g5, h1⟩ := bind_ok h1
  obtain ⟨es2', g5', h2⟩ := bind_ok h2
  cases setStop_app g5 g5'
  cases h1; cases h2
  exact h.evs rfl

theorem emitAttributes_sim {p q p' q' : IP} (h : Sim D E m p q) {ty : ElemTy} {a : Attr.Attributes} (h1 : p.emitAttributes ty a = .ok p')
    (h2 : q.emitAttributes (ty.shift D.length) a = .ok q') : Sim D E m p' q' := by
  unfold IP.emitAttributes at h1 h2
  by_cases ha : a.isEmpty = true
  · simp only [ha, if_true] at h1 h2
    cases ty with
    | word => cases h1; cases h2; exact h
    | container e =>
      simp only [ElemTy.shift] at h1 h2
      rw [h.events, h.inp.span] at h2
      obtain ⟨l, g4, h1⟩ := bind_ok h1
      obtain ⟨l', g4', h2⟩ := bind_ok h2
      cases last_app g4 g4'
      obtain ⟨es2, g5, h1⟩ := bind_ok h1
      obtain ⟨es2', g5', h2⟩ := bind_ok h2
      cases setStop_app g5 g5'
      cases h1; cases h2
      exact h.evs rfl
  · simp only [ha, Bool.false_eq_true, if_false] at h1 h2
    have hs : Sim D E m { p with storeAttributes := p.storeAttributes ++ [a] } { q with storeAttributes := q.storeAttributes ++ [a] } :=
      ⟨h.inp, h.openers, h.events, h.verbatim, h.attributes, h.cow, by simp only [h.attrs], h.vf⟩
    cases ty with
    | word =>
      cases h1; cases h2
      have := (hs.push (.attributes false p.storeAttributes.length)).push .empty
      rw [h.attrs] at this ⊢
      exact this
    | container e =>
      simp only [ElemTy.shift] at h1 h2
      rw [h.inp.span] at h2
      have hx : q.storeAttributes.length = p.storeAttributes.length := by rw [h.attrs]
      rw [hx] at h2
      exact attachContainer_sim hs h1 h2

/-! ## Results -/

/-- Same result. -/
structure Same (D : List Event) (E : Nat) (m : Mode) (r r' : IP × Option Flow) : Prop where
  flow : r'.2 = r.2
  sim : Sim D E m r.1 r'.1

/-- The lexer and the range before do not matter if there are attributes. -/
theorem finish_succ {p q : IP} {r r' : IP × Option Flow} {i0 j0 : Input} (h : Sim D E m { p with input := i0 } { q with input := j0 }) (hsrc : q.input.src = p.input.src)
    (hstop : q.input.spanLine.stop = p.input.spanLine.stop) {start : Nat} {s s2 : AttrScan} (hs : s2.state = s.state.shift D.length)
    (hl : s2.lineEnd = s.lineEnd) (ht : q.input.ahead.take s.state.validLines = p.input.ahead.take s.state.validLines)
    (hp : ∀ i j, p.input.popLines s.lineNext = .ok i → q.input.popLines s2.lineNext = .ok j → LinesRel E m i j) (he : start ≠ s.state.endAttr)
    (h1 : p.finishAttributes start s = .ok r) (h2 : q.finishAttributes start s2 = .ok r') : Same D E m r r' ∧ r.2 = some .cont := by
  unfold IP.finishAttributes at h1 h2
  have e1 : s2.state.endAttr = s.state.endAttr := by rw [hs]; rfl
  have e2 : s2.state.validLines = s.state.validLines := by rw [hs]; rfl
  have e3 : s2.state.elemTy = s.state.elemTy.shift D.length := by rw [hs]; rfl
  rw [e1, e2, e3] at h2
  rw [if_neg he] at h1 h2
  rw [ht, hstop, hsrc, hl] at h2
  obtain ⟨a, g1, h1⟩ := bind_ok h1
  obtain ⟨a', g1', h2⟩ := bind_ok h2
  rw [g1] at g1'; cases g1'
  obtain ⟨i, g2, h1⟩ := bind_ok h1
  obtain ⟨j, g2', h2⟩ := bind_ok h2
  have hsrc : j.src = i.src := by rw [(popLines_eq _ g2).src, (popLines_eq _ g2').src, hsrc]
  rw [hsrc] at h2
  obtain ⟨t, g3, h1⟩ := bind_ok h1
  obtain ⟨t', g3', h2⟩ := bind_ok h2
  rw [g3] at g3'; cases g3'
  obtain ⟨p', g4, h1⟩ := bind_ok h1
  obtain ⟨q', g4', h2⟩ := bind_ok h2
  cases h1; cases h2
  exact ⟨⟨rfl, emitAttributes_sim (h.input (i := { i with span := ⟨start, s.state.endAttr⟩, lexer := Lex.Lexer.new t })
      (j := { j with src := i.src, span := ⟨start, s.state.endAttr⟩, lexer := Lex.Lexer.new t }) ⟨rfl, rfl, .refl _, hp i j g2 g2'⟩ (fun _ => rfl)) g4 g4'⟩, rfl⟩

theorem finish_none {p : IP} {s : AttrScan} {start : Nat} (he : start = s.state.endAttr) : p.finishAttributes start s = .ok (p, none) := by
  unfold IP.finishAttributes
  rw [if_pos he]

theorem finish_sim {p q : IP} {r r' : IP × Option Flow} (h : Sim D E m p q) {start : Nat} {s s2 : AttrScan} (hs : s2.state = s.state.shift D.length)
    (hl : s2.lineEnd = s.lineEnd) (ht : q.input.ahead.take s.state.validLines = p.input.ahead.take s.state.validLines)
    (hp : ∀ i j, p.input.popLines s.lineNext = .ok i → q.input.popLines s2.lineNext = .ok j → LinesRel E m i j)
    (h1 : p.finishAttributes start s = .ok r) (h2 : q.finishAttributes start s2 = .ok r') : Same D E m r r' := by
  by_cases he : start = s.state.endAttr
  · rw [finish_none he] at h1
    rw [finish_none (by rw [hs]; exact he)] at h2
    cases h1; cases h2
    exact ⟨rfl, h⟩
  · exact (finish_succ (i0 := p.input) (j0 := q.input) h h.inp.src h.inp.lines.stop hs hl ht hp he h1 h2).1

/-! ## Reading attributes -/

/-- The steps of `resumeAttributes`. -/
structure Resumed (p : IP) (st : AttributesState) (eaten first : Bool) (r : IP × Option Flow) (start : Nat) (l : Nat × Nat × Nat) (part : Bytes)
    (v : Option Nat × Attr.State) (x : AttrScan × Bool) : Prop where
  hstart : csub p.input.span.stop (if eaten then 1 else 0) = .ok start
  brace : ∃ tail, strSlice p.input.src start p.input.src.length = .ok tail ∧ tail.head? = some (c! '{')
  line : p.input.attrStartLine start first = .ok l
  hpart : strSlice p.input.src l.2.1 l.2.2 = .ok part
  valid : Attr.validatorParse st.validator 0 part = .ok v
  loop : attrLoop p.input.src p.input.ahead p.input.complete (attrFuel p.input.src p.input.ahead) ⟨{ st with validator := v.2 }, l.1, l.2.1, l.2.2⟩ v.1 = .ok x
  res : (if x.2 then p.moreAttributes start x.1.state eaten else p.finishAttributes start x.1) = .ok r

theorem resumed {p : IP} {st : AttributesState} {eaten first : Bool} {r : IP × Option Flow} (h : p.resumeAttributes st eaten first = .ok r) :
    ∃ start l part v x, Resumed p st eaten first r start l part v x := by
  unfold IP.resumeAttributes at h
  obtain ⟨start, h1, h⟩ := bind_ok h
  obtain ⟨tail, h2, h⟩ := bind_ok h
  obtain ⟨u, h3, h⟩ := bind_ok h
  obtain ⟨l, h4, h⟩ := bind_ok h
  obtain ⟨part, h5, h⟩ := bind_ok h
  obtain ⟨v, h6, h⟩ := bind_ok h
  obtain ⟨x, h7, h⟩ := bind_ok h
  refine ⟨start, l, part, v, x, h1, ⟨tail, h2, ?_⟩, h4, h5, h6, h7, h⟩
  unfold dassert at h3
  split at h3
  · rename_i hx; simpa using hx
  · cases h3

theorem more_sim {p q : IP} {r r' : IP × Option Flow} (h : Sim D E m p q) {start : Nat} {st : AttributesState} {eaten : Bool}
    (h1 : p.moreAttributes start st eaten = .ok r) (h2 : q.moreAttributes start (st.shift D.length) eaten = .ok r') : Same D E m r r' := by
  unfold IP.moreAttributes at h1 h2
  cases eaten with
  | true =>
    simp only [if_true] at h1 h2
    rw [h.inp.src, h.inp.lines.stop] at h2
    obtain ⟨t, g1, h1⟩ := bind_ok h1
    obtain ⟨t', g1', h2⟩ := bind_ok h2
    rw [g1] at g1'; cases g1'
    cases h1; cases h2
    exact ⟨rfl, (h.input (i := { p.input with span := ⟨start, start⟩, lexer := Lex.Lexer.new t })
      (j := { q.input with span := ⟨start, start⟩, lexer := Lex.Lexer.new t, src := p.input.src }) ⟨rfl, rfl, .refl _, h.inp.lines⟩ (fun _ => rfl)).attr (some st)⟩
  | false =>
    simp only [Bool.false_eq_true, if_false] at h1 h2
    cases h1; cases h2
    exact ⟨rfl, h.attr (some st)⟩

theorem shift_ty (st : AttributesState) (n : Nat) : st.shift n = { st with elemTy := st.elemTy.shift n } := rfl

/-- The element does not change. -/
theorem loop_elemTy {src : Bytes} {ahead : List Span} {c : Bool} {fuel : Nat} {s : AttrScan} {res : Option Nat} {x : AttrScan × Bool} (h : attrLoop src ahead c fuel s res = .ok x) :
    x.1.state.elemTy = s.state.elemTy := by
  have h6 := attrLoop_ty _ _ _ s.state.elemTy _ _ _ _ _ h
  have h7 : AttrScan.ty s.state.elemTy s = s := rfl
  rw [h7, h] at h6
  have h9 : x.1 = x.1.ty s.state.elemTy := congrArg Prod.fst (Except.ok.inj h6)
  rw [h9]; rfl

theorem loop_shift {i j : Input} {st : AttributesState} {v : Attr.State} {o : Option Nat} {l : Nat × Nat × Nat} {n : Nat} {x x' : AttrScan × Bool} {f : Nat}
    (h1 : attrLoop i.src i.ahead i.complete f ⟨{ st with validator := v }, l.1, l.2.1, l.2.2⟩ o = .ok x)
    (h2 : attrLoop j.src j.ahead j.complete (attrFuel j.src j.ahead) ⟨{ st.shift n with validator := v }, l.1, l.2.1, l.2.2⟩ o = .ok x')
    (e0 : j.src = i.src) (e1 : j.complete = i.complete) (e2 : j.ahead = i.ahead) (e3 : f = attrFuel i.src i.ahead) :
    x' = (x.1.ty (x.1.state.elemTy.shift n), x.2) ∧ x.1.state.elemTy = st.elemTy := by
  subst e3
  have h3 := attrLoop_ty _ _ _ (st.elemTy.shift n) _ _ _ _ _ h1
  rw [e0, e1, e2] at h2
  have h5 : (⟨{ st.shift n with validator := v }, l.1, l.2.1, l.2.2⟩ : AttrScan) = AttrScan.ty (st.elemTy.shift n) ⟨{ st with validator := v }, l.1, l.2.1, l.2.2⟩ := rfl
  rw [h5, h3] at h2
  have h8 : x.1.state.elemTy = st.elemTy := loop_elemTy h1
  refine ⟨?_, h8⟩
  cases h2
  rw [h8]

theorem resume_same {p q : IP} {r r' : IP × Option Flow} (h : Sim D E .same p q) {st : AttributesState} {eaten first : Bool}
    (h1 : p.resumeAttributes st eaten first = .ok r) (h2 : q.resumeAttributes (st.shift D.length) eaten first = .ok r') : Same D E .same r r' := by
  obtain ⟨start, l, part, v, x, R⟩ := resumed h1
  obtain ⟨start', l', part', v', x', R'⟩ := resumed h2
  obtain ⟨e1, e2, e3⟩ := h.inp.lines
  have hst : start' = start := by have := R'.hstart; rw [h.inp.span, R.hstart] at this; cases this; rfl
  subst hst
  have hl : l' = l := by
    have := R'.line
    unfold Input.attrStartLine at this
    rw [e2, e3] at this
    have h3 := R.line
    unfold Input.attrStartLine at h3
    rw [h3] at this; cases this; rfl
  subst hl
  have hp : part' = part := by have := R'.hpart; rw [h.inp.src, R.hpart] at this; cases this; rfl
  subst hp
  have hv : v' = v := by have := R'.valid; rw [shift_ty] at this; simp only at this; rw [R.valid] at this; cases this; rfl
  subst hv
  have hx := loop_shift R.loop R'.loop h.inp.src e1 e2 rfl
  obtain ⟨hx, hty⟩ := hx
  subst hx
  have g1 := R.res
  have g2 := R'.res
  simp only at g2
  by_cases hm : x.2 = true
  · simp only [hm, if_true] at g1 g2
    exact more_sim h g1 g2
  · simp only [hm, Bool.false_eq_true, if_false] at g1 g2
    refine finish_sim h (s := x.1) (s2 := x.1.ty (x.1.state.elemTy.shift D.length)) rfl rfl (by rw [e2]) ?_ g1 g2
    intro i j hi hj
    exact h.inp.lines.pop_same hi hj

theorem attrStartLine_scan {i : Input} {start : Nat} {first : Bool} {l : Nat × Nat × Nat} (h : i.attrStartLine start first = .ok l) (st : AttributesState) :
    ScanOk i.ahead i.spanLine.stop ⟨st, l.1, l.2.1, l.2.2⟩ := by
  unfold Input.attrStartLine at h
  cases first with
  | true =>
    simp only [if_true] at h
    cases h
    exact ⟨Nat.zero_le _, fun _ => rfl, fun _ h => absurd h (Nat.lt_irrefl _)⟩
  | false =>
    simp only [Bool.false_eq_true, if_false] at h
    obtain ⟨n, h1, h⟩ := bind_ok h
    obtain ⟨x, h2, h⟩ := bind_ok h
    cases h
    have := csub_some h1
    unfold idx at h2
    refine ⟨Nat.le_refl _, fun h0 => ?_, fun l' _ hl' => ?_⟩
    · simp only at h0; omega
    · simp only at hl'
      rw [this.2, hl'] at h2
      cases h2; rfl

/-- The scan is at the end of the lines. -/
theorem ScanOk.end {i : Input} {s : AttrScan} (h : ScanOk i.ahead i.spanLine.stop s) (hn : i.ahead.length ≤ s.lineNext) : s.lineNext = i.ahead.length ∧ s.lineEnd = i.lastStop := by
  have h1 := h.next
  have h2 : s.lineNext = i.ahead.length := by omega
  refine ⟨h2, ?_⟩
  unfold Input.lastStop
  cases ha : i.ahead.getLast? with
  | none =>
    rw [List.getLast?_eq_none_iff] at ha
    rw [ha] at h2
    simpa using h.zero h2
  | some l =>
    rw [List.getLast?_eq_getElem?] at ha
    have := (List.getElem?_eq_some_iff.1 ha).1
    rw [h.pos l (by omega) (by rw [h2]; exact ha)]
    rfl

/-- The second parser waits for another line, the first one does not. -/
structure Lagging (D : List Event) (E : Nat) (p q : IP) (st : AttributesState) (eaten first : Bool) (r r' : IP × Option Flow) (start : Nat) (x : AttrScan) : Prop where
  resumed : ∃ l part v, Resumed p st eaten first r start l part v (x, false)
  more : q.moreAttributes start (x.state.shift D.length) eaten = .ok r'
  next : x.lineNext = p.input.ahead.length
  stop : x.lineEnd = E

theorem Lagging.fin {p q : IP} {st : AttributesState} {eaten first : Bool} {r r' : IP × Option Flow} {start : Nat} {x : AttrScan}
    (h : Lagging D E p q st eaten first r r' start x) : p.finishAttributes start x = .ok r := by
  obtain ⟨l, part, v, R⟩ := h.resumed
  simpa using R.res

theorem resume_pre {p q : IP} {r r' : IP × Option Flow} (h : Sim D E .pre p q) {st : AttributesState} {eaten first : Bool}
    (h1 : p.resumeAttributes st eaten first = .ok r) (h2 : q.resumeAttributes (st.shift D.length) eaten first = .ok r') :
    Same D E .pre r r' ∨ ∃ start x, Lagging D E p q st eaten first r r' start x := by
  obtain ⟨start, l, part, v, x, R⟩ := resumed h1
  obtain ⟨start', l', part', v', x', R'⟩ := resumed h2
  obtain ⟨e0, e1, e2, e3, e4⟩ := h.inp.lines
  have hst : start' = start := by have := R'.hstart; rw [h.inp.span, R.hstart] at this; cases this; rfl
  subst hst
  have hl : l' = l := by
    have := R'.line
    unfold Input.attrStartLine at this
    rw [e2, e3] at this
    have h3 := R.line
    unfold Input.attrStartLine at h3
    rw [h3] at this; cases this; rfl
  subst hl
  have hp : part' = part := by have := R'.hpart; rw [h.inp.src, R.hpart] at this; cases this; rfl
  subst hp
  have hv : v' = v := by have := R'.valid; rw [shift_ty] at this; simp only at this; rw [R.valid] at this; cases this; rfl
  subst hv
  -- the loop of the second parser, with the element of the first
  have hq := attrLoop_ty _ _ _ st.elemTy _ _ _ _ _ R'.loop
  have h5 : AttrScan.ty st.elemTy ⟨{ st.shift D.length with validator := v'.2 }, l'.1, l'.2.1, l'.2.2⟩ = ⟨{ st with validator := v'.2 }, l'.1, l'.2.1, l'.2.2⟩ := rfl
  rw [h5, h.inp.src, e1, e2] at hq
  have hpl := R.loop
  rw [e0] at hpl
  obtain ⟨c1, c2, c3⟩ := attrLoop_complete _ _ _ _ _ _ _ _ _ hpl hq
  have t1 : x'.1.state.elemTy = st.elemTy.shift D.length := loop_elemTy R'.loop
  have t2 : x.1.state.elemTy = st.elemTy := loop_elemTy R.loop
  have hx : x'.1 = x.1.ty (x.1.state.elemTy.shift D.length) := by
    rw [t2, ← c1]
    show x'.1 = { x'.1 with state := { x'.1.state with elemTy := st.elemTy.shift D.length } }
    rw [← t1]
  have g1 := R.res
  rw [c2] at g1
  simp only [Bool.false_eq_true, if_false] at g1
  have g2 := R'.res
  rw [hx] at g2
  by_cases hm : x'.2 = true
  · right
    simp only [hm, if_true] at g2
    have hsc := attrLoop_scan _ _ _ p.input.spanLine.stop _ _ _ _ _ R.loop (attrStartLine_scan R.line _)
    obtain ⟨k1, k2⟩ := hsc.end (c3 hm)
    have hx2 : x = (x.1, false) := by rw [← c2]
    exact ⟨start', x.1, ⟨l', part', v', by rw [← hx2]; exact R⟩, g2, k1, by rw [k2, e4]⟩
  · left
    simp only [hm, Bool.false_eq_true, if_false] at g2
    refine finish_sim h (s := x.1) (s2 := x.1.ty (x.1.state.elemTy.shift D.length)) rfl rfl (by rw [e2]) ?_ g1 g2
    intro i j hi hj
    exact h.inp.lines.pop_pre hi hj

theorem resume_post {p q : IP} {r r' : IP × Option Flow} (h : Sim D E .post p q) {st : AttributesState} {eaten : Bool} (hv0 : st.validLines = 0)
    (h1 : p.resumeAttributes st eaten true = .ok r) (h2 : q.resumeAttributes (st.shift D.length) eaten true = .ok r') : Same D E .post r r' := by
  obtain ⟨start, l, part, v, x, R⟩ := resumed h1
  obtain ⟨start', l', part', v', x', R'⟩ := resumed h2
  obtain ⟨e0, e1, e4, e5⟩ := id h.inp.lines
  have hst : start' = start := by have := R'.hstart; rw [h.inp.span, R.hstart] at this; cases this; rfl
  subst hst
  have hl : l' = l ∧ l = (0, start', p.input.spanLine.stop) := by
    have := R'.line
    unfold Input.attrStartLine at this
    rw [h.inp.lines.stop] at this
    have h3 := R.line
    unfold Input.attrStartLine at h3
    simp only [if_true] at h3 this
    cases h3; cases this; exact ⟨rfl, rfl⟩
  obtain ⟨rfl, hl0⟩ := hl
  have hp : part' = part := by have := R'.hpart; rw [h.inp.src, R.hpart] at this; cases this; rfl
  subst hp
  have hv : v' = v := by have := R'.valid; rw [shift_ty] at this; simp only at this; rw [R.valid] at this; cases this; rfl
  subst hv
  have hq := attrLoop_ty _ _ _ st.elemTy _ _ _ _ _ R'.loop
  have h5 : AttrScan.ty st.elemTy ⟨{ st.shift D.length with validator := v'.2 }, l'.1, l'.2.1, l'.2.2⟩ = ⟨{ st with validator := v'.2 }, l'.1, l'.2.1, l'.2.2⟩ := rfl
  rw [h5, h.inp.src, e1] at hq
  have hpl := R.loop
  rw [e0] at hpl
  have t1 : x'.1.state.elemTy = st.elemTy.shift D.length := loop_elemTy R'.loop
  have t2 : x.1.state.elemTy = st.elemTy := loop_elemTy R.loop
  have hval := (attrLoop_valid _ _ _ _ _ _ _ _ R.loop).1 (by simp only [hv0]; exact Nat.zero_le _)
  have hsc := attrLoop_scan _ _ _ p.input.spanLine.stop _ _ _ _ _ R.loop (attrStartLine_scan R.line _)
  have hback : ∀ y, x'.1.ty st.elemTy = y → x'.1 = y.ty (st.elemTy.shift D.length) := by
    intro y hy
    rw [← hy, ← t1]
    rfl
  have key : x.2 = false ∧ x'.2 = false ∧ ((x'.1 = x.1.ty (st.elemTy.shift D.length)) ∨
      (x.1.lineNext = p.input.ahead.length ∧ x'.1 = (x.1.eps E).ty (st.elemTy.shift D.length))) := by
    rcases e5 with ⟨e5, e6⟩ | ⟨e5, e6, e7⟩
    · rw [e5] at hq
      obtain ⟨k1, k2, k3⟩ := attrLoop_eps _ _ _ _ _ _ _ _ _ _ hpl hq (by rw [hl0]; exact Nat.zero_le _)
      refine ⟨k1, k2, ?_⟩
      rcases k3 with k3 | ⟨k3, k4⟩
      · exact .inl (hback _ k3.1)
      · exact .inr ⟨k3, hback _ k4⟩
    · rw [e5] at hq
      rw [e6, hq] at hpl
      have h3 := Except.ok.inj hpl
      have hx2 : x'.2 = false := (attrLoop_valid _ _ _ _ _ _ _ _ R'.loop).2 e1
      refine ⟨?_, hx2, .inl (hback _ (congrArg Prod.fst h3))⟩
      rw [← h3]; exact hx2
  obtain ⟨k1, k2, k3⟩ := key
  have g1 := R.res
  have g2 := R'.res
  simp only [k1, k2, Bool.false_eq_true, if_false] at g1 g2
  have ht : q.input.ahead.take x.1.state.validLines = p.input.ahead.take x.1.state.validLines := by
    rcases e5 with ⟨e5, e6⟩ | ⟨e5, e6, e7⟩
    · rw [e5, List.take_append_of_le_length (by have := hsc.next; omega)]
    · rw [e5, e6]
  rcases k3 with k3 | ⟨k3, k4⟩
  · refine finish_sim h (s := x.1) (s2 := x'.1) (by rw [k3, ← t2]; rfl) (by rw [k3]; rfl) ht ?_ g1 g2
    intro i j hi hj
    rw [k3] at hj
    exact h.inp.lines.pop_post hi hj
  · have hend := hsc.end (by rw [k3]; exact Nat.le_refl _)
    refine finish_sim h (s := x.1) (s2 := x'.1) (by rw [k4, ← t2]; rfl) (by rw [k4, hend.2, e4]; rfl) ht ?_ g1 g2
    intro i j hi hj
    rw [k4] at hj
    exact h.inp.lines.pop_eps k3 hi hj

/-- The second parser goes on when it gets the empty line. -/
theorem resume_eps {p q : IP} {r' : IP × Option Flow} {x : AttrScan} {start : Nat} (hah : q.input.ahead = p.input.ahead ++ [⟨E, E⟩])
    (hc : q.input.complete = true) (hst : csub q.input.span.stop 1 = .ok start) (h2 : q.resumeAttributes (x.state.shift D.length) true false = .ok r') (hn : x.lineNext = p.input.ahead.length) :
    q.finishAttributes start ((x.eps E).ty (x.state.elemTy.shift D.length)) = .ok r' := by
  obtain ⟨start', l', part', v', x', R'⟩ := resumed h2
  have hst : start' = start := by have := R'.hstart; simp only [if_true] at this; rw [hst] at this; cases this; rfl
  subst hst
  have hl : l' = (p.input.ahead.length + 1, E, E) := by
    have := R'.line
    unfold Input.attrStartLine at this
    rw [hah] at this
    simp only [Bool.false_eq_true, if_false] at this
    obtain ⟨n, h1, this⟩ := bind_ok this
    obtain ⟨y, h2, this⟩ := bind_ok this
    have := csub_some h1
    simp at this
    rw [this] at h2
    unfold idx at h2
    simp at h2
    cases h2
    cases this
    simp_all
  subst hl
  have hp := R'.hpart
  cases strSlice_empty hp
  have hv := R'.valid
  cases hv
  have hloop := R'.loop
  rw [hah, hc] at hloop
  unfold attrFuel at hloop
  rw [attrLoop_succ] at hloop
  have hx : (p.input.ahead ++ [(⟨E, E⟩ : Span)])[p.input.ahead.length + 1]? = none := by simp
  simp only [hx] at hloop
  cases hloop
  have g2 := R'.res
  simp only [Bool.not_true, Bool.false_eq_true, if_false] at g2
  rw [← g2]
  unfold AttrScan.eps AttrScan.ty
  rw [hn]
  rfl

end Jotdown.Inline
