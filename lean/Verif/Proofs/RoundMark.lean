import Verif.Proofs.RoundRuns
/-! # Round trip: the state of the block parser -/
namespace Jotdown.Round
open Jotdown Jotdown.Notation

/-- What matters for lists: a blank line, the start of another block, the start or the end of a list. -/
inductive Mk
  | blank | block | set (b : Bool)
  deriving DecidableEq, Repr, Inhabited

/-- The innermost list is loose if a block follows a blank line. -/
def loosen (es : List Block.Event) (i : Nat) : Option (List Block.Event) :=
  match es[i]? with
  | some ⟨.enter (.container (.list ty true)), sp⟩ => some (es.set i ⟨.enter (.container (.list ty false)), sp⟩)
  | _ => none

def mark (p : Block.TP) : Mk → Block.TP
  | .blank => { p with prevBlankline := true }
  | .block =>
    match p.prevBlankline, p.openLists with
    | true, l :: _ =>
      match loosen p.events l.event with
      | some es => { p with prevLoose := true, prevBlankline := false, events := es }
      | none => { p with prevLoose := false, prevBlankline := false }
    | _, _ => { p with prevLoose := false, prevBlankline := false }
  | .set b => { p with prevLoose := false, prevBlankline := b }

def marks (p : Block.TP) (ms : List Mk) : Block.TP := ms.foldl mark p

@[simp] theorem marks_nil (p : Block.TP) : marks p [] = p := rfl
@[simp] theorem marks_cons (p : Block.TP) (m : Mk) (ms : List Mk) : marks p (m :: ms) = marks (mark p m) ms := rfl
theorem marks_append (p : Block.TP) (a b : List Mk) : marks p (a ++ b) = marks (marks p a) b := by simp [marks]

/-- More events. -/
def app (p : Block.TP) (es : List Block.Event) : Block.TP := { p with events := p.events ++ es }

@[simp] theorem app_events (p : Block.TP) (es : List Block.Event) : (app p es).events = p.events ++ es := rfl
@[simp] theorem app_src (p : Block.TP) (es : List Block.Event) : (app p es).src = p.src := rfl
@[simp] theorem app_lists (p : Block.TP) (es : List Block.Event) : (app p es).openLists = p.openLists := rfl
@[simp] theorem app_open (p : Block.TP) (es : List Block.Event) : (app p es).open_ = p.open_ := rfl
@[simp] theorem app_attr (p : Block.TP) (es : List Block.Event) : (app p es).attrStart = p.attrStart := rfl
theorem app_app (p : Block.TP) (a b : List Block.Event) : app (app p a) b = app p (a ++ b) := by simp [app]
@[simp] theorem app_nil (p : Block.TP) : app p [] = p := by simp [app]

/-- A list may be open here. -/
structure Near (p : Block.TP) : Prop where
  lists : ∀ l ls, p.openLists = l :: ls → l.depth ≤ p.open_.length ∧ l.event < p.events.length
  opn : ∀ i ∈ p.open_, i < p.events.length

/-- No list is open here. -/
structure Calm (p : Block.TP) : Prop where
  lists : ∀ l ls, p.openLists = l :: ls → l.depth < p.open_.length ∧ l.event < p.events.length
  opn : ∀ i ∈ p.open_, i < p.events.length

theorem Calm.near {p : Block.TP} (h : Calm p) : Near p :=
  ⟨fun l ls hl => ⟨Nat.le_of_lt (h.lists l ls hl).1, (h.lists l ls hl).2⟩, h.opn⟩

theorem loosen_len {es es' : List Block.Event} {i : Nat} (h : loosen es i = some es') : es'.length = es.length := by
  unfold loosen at h
  split at h <;> cases h
  simp

theorem loosen_other {es es' : List Block.Event} {i j : Nat} (h : loosen es i = some es') (hj : i ≠ j) : es'[j]? = es[j]? := by
  unfold loosen at h
  split at h <;> cases h
  rw [List.getElem?_set_ne hj]

theorem loosen_append {es : List Block.Event} {i : Nat} (hi : i < es.length) (E : List Block.Event) : loosen (es ++ E) i = (loosen es i).map (· ++ E) := by
  unfold loosen
  rw [List.getElem?_append_left hi]
  split
  · simp [List.set_append_left _ _ hi]
  · rfl

theorem mark_facts (p : Block.TP) (m : Mk) : (mark p m).src = p.src ∧ (mark p m).openLists = p.openLists ∧ (mark p m).open_ = p.open_ ∧ (mark p m).attrStart = p.attrStart
    ∧ (mark p m).events.length = p.events.length ∧ (mark p m).openSections = p.openSections ∧ (mark p m).alignments = p.alignments := by
  cases m with
  | blank => exact ⟨rfl, rfl, rfl, rfl, rfl, rfl, rfl⟩
  | set b => exact ⟨rfl, rfl, rfl, rfl, rfl, rfl, rfl⟩
  | block =>
    simp only [mark]
    split
    · split
      · rename_i h; exact ⟨rfl, rfl, rfl, rfl, loosen_len h, rfl, rfl⟩
      · exact ⟨rfl, rfl, rfl, rfl, rfl, rfl, rfl⟩
    · exact ⟨rfl, rfl, rfl, rfl, rfl, rfl, rfl⟩

theorem marks_facts (p : Block.TP) (ms : List Mk) : (marks p ms).src = p.src ∧ (marks p ms).openLists = p.openLists ∧ (marks p ms).open_ = p.open_ ∧ (marks p ms).attrStart = p.attrStart
    ∧ (marks p ms).events.length = p.events.length ∧ (marks p ms).openSections = p.openSections ∧ (marks p ms).alignments = p.alignments := by
  induction ms generalizing p with
  | nil => exact ⟨rfl, rfl, rfl, rfl, rfl, rfl, rfl⟩
  | cons m ms ih =>
    have h1 := mark_facts p m
    have h2 := ih (mark p m)
    simp only [marks_cons, h2, h1, true_and]

/-- Events other than the innermost list are as before. -/
theorem mark_other (p : Block.TP) (m : Mk) {j : Nat} (h : ∀ l ls, p.openLists = l :: ls → l.event ≠ j) : (mark p m).events[j]? = p.events[j]? := by
  cases m with
  | blank => rfl
  | set b => rfl
  | block =>
    simp only [mark]
    split
    · rename_i l ls hb hl
      split
      · rename_i he; exact loosen_other he (h _ _ hl)
      · rfl
    · rfl

theorem marks_other (p : Block.TP) (ms : List Mk) {j : Nat} (h : ∀ l ls, p.openLists = l :: ls → l.event ≠ j) : (marks p ms).events[j]? = p.events[j]? := by
  induction ms generalizing p with
  | nil => rfl
  | cons m ms ih =>
    rw [marks_cons, ih _ (by rw [(mark_facts p m).2.1]; exact h), mark_other p m h]

theorem Calm.mark {p : Block.TP} (h : Calm p) (m : Mk) : Calm (mark p m) := by
  have := mark_facts p m
  refine ⟨?_, ?_⟩
  · rw [this.2.1, this.2.2.1, this.2.2.2.2.1]
    exact h.lists
  · rw [this.2.2.1, this.2.2.2.2.1]
    exact h.opn

theorem Near.mark {p : Block.TP} (h : Near p) (m : Mk) : Near (mark p m) := by
  have := mark_facts p m
  refine ⟨?_, ?_⟩
  · rw [this.2.1, this.2.2.1, this.2.2.2.2.1]
    exact h.lists
  · rw [this.2.2.1, this.2.2.2.2.1]
    exact h.opn

theorem Near.app {p : Block.TP} (h : Near p) (es : List Block.Event) : Near (app p es) := by
  refine ⟨?_, fun i hi => ?_⟩
  · intro l ls hl
    have := h.lists l ls hl
    exact ⟨this.1, by simp; omega⟩
  · have := h.opn i hi
    simp; omega

theorem Near.marks {p : Block.TP} (h : Near p) (ms : List Mk) : Near (marks p ms) := by
  induction ms generalizing p with
  | nil => exact h
  | cons m ms ih => exact ih (h.mark m)

theorem Calm.marks {p : Block.TP} (h : Calm p) (ms : List Mk) : Calm (marks p ms) := by
  induction ms generalizing p with
  | nil => exact h
  | cons m ms ih => exact ih (h.mark m)

theorem Calm.app {p : Block.TP} (h : Calm p) (es : List Block.Event) : Calm (app p es) := by
  refine ⟨?_, fun i hi => ?_⟩
  · intro l ls hl
    have := h.lists l ls hl
    exact ⟨this.1, by simp; omega⟩
  · have := h.opn i hi
    simp; omega

theorem mark_app {p : Block.TP} (h : Near p) (m : Mk) (E : List Block.Event) : mark (app p E) m = app (mark p m) E := by
  cases m with
  | blank => rfl
  | set b => rfl
  | block =>
    cases hb : p.prevBlankline with
    | false => simp [mark, app, hb]
    | true =>
      cases hl : p.openLists with
      | nil => simp [mark, app, hb, hl]
      | cons l ls =>
        have := loosen_append (h.lists l ls hl).2 E
        simp only [mark, app, hb, hl, this]
        cases loosen p.events l.event <;> rfl

theorem marks_app {p : Block.TP} (h : Near p) (ms : List Mk) (E : List Block.Event) : marks (app p E) ms = app (marks p ms) E := by
  induction ms generalizing p with
  | nil => rfl
  | cons m ms ih => rw [marks_cons, mark_app h, ih (h.mark m)]; rfl

/-- The open elements do not matter. -/
theorem marks_open (p : Block.TP) (ms : List Mk) (o : List Nat) : marks { p with open_ := o } ms = { marks p ms with open_ := o } := by
  induction ms generalizing p with
  | nil => rfl
  | cons m ms ih =>
    have : mark { p with open_ := o } m = { mark p m with open_ := o } := by
      cases m with
      | blank => rfl
      | set b => rfl
      | block =>
        simp only [mark]
        split
        · split <;> rfl
        · rfl
    rw [marks_cons, this, ih]
    rfl

/-! ## An open list -/

/-- The list that is open here, if there is one, is closed. -/
def settle (p : Block.TP) (pos : Nat) : Block.TP :=
  match p.openLists with
  | [] => p
  | l :: ls =>
    if p.open_.length = l.depth then
      match Block.TP.closeList { p with openLists := ls } l pos with
      | .ok q => q
      | .error _ => p
    else p

theorem Calm.settle {p : Block.TP} (h : Calm p) (pos : Nat) : settle p pos = p := by
  unfold Round.settle
  split
  · rfl
  · rename_i l ls hl
    rw [if_neg (by have := (h.lists l ls hl).1; omega)]

theorem exit_facts {p q : Block.TP} {sp : Span} (h : p.exit sp = .ok q) : q.src = p.src ∧ q.attrStart = p.attrStart ∧ q.openSections = p.openSections ∧ q.alignments = p.alignments := by
  unfold Block.TP.exit at h
  split at h
  · cases h
  · obtain ⟨n, -, g⟩ := bind_ok h
    cases g
    exact ⟨rfl, rfl, rfl, rfl⟩

theorem closeList_facts {p q : Block.TP} {l : Block.OpenList} {pos : Nat} (h : p.closeList l pos = .ok q) :
    q.src = p.src ∧ q.attrStart = p.attrStart ∧ q.openSections = p.openSections ∧ q.alignments = p.alignments := by
  unfold Block.TP.closeList at h
  obtain ⟨e, -, g⟩ := bind_ok h
  clear h
  split at g
  · have := exit_facts g
    exact this
  · cases g

theorem settle_src (p : Block.TP) (pos : Nat) : (settle p pos).src = p.src ∧ (settle p pos).attrStart = p.attrStart := by
  unfold settle
  split
  · exact ⟨rfl, rfl⟩
  · split
    · split
      · rename_i q hq
        exact ⟨(closeList_facts hq).1, (closeList_facts hq).2.1⟩
      · exact ⟨rfl, rfl⟩
    · exact ⟨rfl, rfl⟩

/-- The innermost list is made loose. -/
theorem setLoose_mark {p p2 : Block.TP} {l : Block.OpenList} {ls : List Block.OpenList} (hpl : p.openLists = l :: ls) (hpb : p.prevBlankline = true)
    (h : ({ p with prevLoose := false } : Block.TP).setLoose l = .ok p2) : { p2 with prevBlankline := false } = mark p .block := by
  unfold Block.TP.setLoose at h
  obtain ⟨e, he, h3⟩ := bind_ok h
  clear h
  simp only [idx] at he
  simp only [mark, hpb, hpl]
  split at he
  · rename_i e' hev
    cases he
    unfold loosen
    rw [hev]
    obtain ⟨ek, es⟩ := e
    simp only at h3
    split at h3
    · cases h3
      simp [hpl]
    · rename_i hk
      cases h3
      split
      · rename_i heq
        split at heq
        · rename_i ty sp heq2
          cases heq2
          exact absurd rfl (hk _)
        · cases heq
      · simp [hpl]
  · cases he

/-- Blocks other than list items. -/
theorem updateLoose_mark {p p' : Block.TP} {k : Block.Kind} (hk : k.isListItem = false) (h : p.updateLoose k = .ok p') :
    p' = mark p (if k = .atom .blankline then .blank else .block) := by
  unfold Block.TP.updateLoose at h
  split at h
  · rename_i hb
    cases h
    rw [if_pos hb]; rfl
  · rename_i hb
    obtain ⟨p2, h2, g2⟩ := bind_ok h
    clear h
    cases g2
    rw [if_neg hb]
    unfold Block.TP.looseAfterBlank at h2
    split at h2
    · rename_i l ls hpb hpl
      rw [if_pos (.inr hk)] at h2
      exact setLoose_mark hpl hpb h2
    · rename_i hx
      cases h2
      simp only [mark]

/-- The list that is open here ends before a block that is not a list item. -/
theorem maybeClose_settle {p p' : Block.TP} {k : Block.Kind} {pos : Nat} (hk : k.isListItem = false) (h : p.maybeCloseList k pos = .ok p') : p' = settle p pos := by
  unfold Block.TP.maybeCloseList at h
  unfold settle
  split at h
  · rename_i hl; cases h; rw [hl]
  · rename_i l ls hl
    rw [hl]
    obtain ⟨_, -, g⟩ := bind_ok h
    clear h
    simp only
    split at g
    · rename_i hd
      rw [if_pos hd]
      have hlc : Block.listContinues l k = .ok none := by
        cases k with
        | listItem _ _ _ => simp [Block.Kind.isListItem] at hk
        | _ => rfl
      rw [hlc] at g
      simp only [Bind.bind, Except.bind] at g
      split
      · rename_i q hq
        rw [hq] at g; cases g; rfl
      · rename_i hq
        rw [hq] at g; cases g
    · rename_i hd
      rw [if_neg hd]
      cases g; rfl

/-- Blocks other than list items. -/
theorem beforeBlock_mark {p p' : Block.TP} {b : Block.Prepared} (hk : b.kind.isListItem = false) (h : p.beforeBlock b = .ok p') :
    p' = mark (settle p b.spanStart.start) (if b.kind = .atom .blankline then .blank else .block) := by
  unfold Block.TP.beforeBlock at h
  obtain ⟨p1, h1, g⟩ := bind_ok h
  clear h
  rw [maybeClose_settle hk h1] at g
  exact updateLoose_mark hk g

/-- The first item of a list. -/
theorem beforeBlock_first {p p' : Block.TP} {b : Block.Prepared} (hc : Calm p) (hk : b.kind.isListItem = true) (h : p.beforeBlock b = .ok p') : p' = mark p (.set false) := by
  unfold Block.TP.beforeBlock at h
  obtain ⟨p1, h1, g⟩ := bind_ok h
  clear h
  have e1 : p1 = p := by
    unfold Block.TP.maybeCloseList at h1
    split at h1
    · cases h1; rfl
    · rename_i l ls hl
      obtain ⟨_, -, h1⟩ := bind_ok h1
      rw [if_neg (by have := (hc.lists l ls hl).1; omega)] at h1
      cases h1; rfl
  subst e1
  unfold Block.TP.updateLoose at g
  rw [if_neg (by intro he; rw [he] at hk; cases hk)] at g
  obtain ⟨p2, h2, g2⟩ := bind_ok g
  clear g
  cases g2
  unfold Block.TP.looseAfterBlank at h2
  split at h2
  · rename_i l ls hpb hpl
    have := (hc.lists l ls hpl).1
    rw [if_neg (by simp [hk]; simp at hpl ⊢; omega)] at h2
    cases h2
    rfl
  · cases h2
    rfl

/-! ## Alignments and attributes -/

/-- The alignments of columns, and where attributes begin. -/
abbrev Ext := List Alignment × Option Nat

/-- Other alignments of columns, as a table leaves them, and other attributes before. -/
def al (p : Block.TP) (a : Ext) : Block.TP := { p with alignments := a.1, attrStart := a.2 }

/-- No attributes before. -/
def bare (p : Block.TP) : Block.TP := { p with attrStart := none }

theorem bare_al (p : Block.TP) : bare p = al p (p.alignments, none) := rfl
theorem bare_al2 (p : Block.TP) (a : Ext) : bare (al p a) = al p (a.1, none) := rfl
theorem al_self (p : Block.TP) : al p (p.alignments, p.attrStart) = p := rfl
@[simp] theorem al_al (p : Block.TP) (a b : Ext) : al (al p a) b = al p b := rfl
@[simp] theorem al_src (p : Block.TP) (a : Ext) : (al p a).src = p.src := rfl
@[simp] theorem al_lists (p : Block.TP) (a : Ext) : (al p a).openLists = p.openLists := rfl
@[simp] theorem al_open (p : Block.TP) (a : Ext) : (al p a).open_ = p.open_ := rfl
@[simp] theorem al_attr (p : Block.TP) (a : Ext) : (al p a).attrStart = a.2 := rfl
@[simp] theorem al_events (p : Block.TP) (a : Ext) : (al p a).events = p.events := rfl
@[simp] theorem al_sections (p : Block.TP) (a : Ext) : (al p a).openSections = p.openSections := rfl
theorem app_al (p : Block.TP) (a : Ext) (E : List Block.Event) : app (al p a) E = al (app p E) a := rfl

theorem mark_al (p : Block.TP) (a : Ext) (m : Mk) : mark (al p a) m = al (mark p m) a := by
  cases m with
  | blank => rfl
  | set b => rfl
  | block =>
    simp only [mark, al]
    split
    · split <;> rfl
    · rfl

theorem marks_al (p : Block.TP) (a : Ext) (ms : List Mk) : marks (al p a) ms = al (marks p ms) a := by
  induction ms generalizing p with
  | nil => rfl
  | cons m ms ih => rw [marks_cons, mark_al, ih]; rfl

theorem Calm.al {p : Block.TP} (h : Calm p) (a : Ext) : Calm (al p a) := ⟨h.lists, h.opn⟩
theorem Near.al {p : Block.TP} (h : Near p) (a : Ext) : Near (al p a) := ⟨h.lists, h.opn⟩

/-! ## Items of an open list -/

/-- A list is open here: it was opened after `q`, and has the events `E` so far. -/
def pend (q : Block.TP) (ty0 tyk : Block.ListType) (s : Span) (t pb pl : Bool) (E : List Block.Event) : Block.TP :=
  { q with prevBlankline := pb, prevLoose := pl, openLists := ⟨ty0, tyk, q.open_.length + 1, q.events.length⟩ :: q.openLists,
           open_ := q.events.length :: q.open_, events := q.events ++ ⟨.enter (.container (.list ty0 t)), s⟩ :: E }

theorem pend_al (q : Block.TP) (a : Ext) (ty0 tyk : Block.ListType) (s : Span) (t pb pl : Bool) (E : List Block.Event) :
    al (pend q ty0 tyk s t pb pl E) a = pend (al q a) ty0 tyk s t pb pl E := rfl

/-- The state of an open list: tight, after a blank line, made loose by the last block. -/
def move : Bool × Bool × Bool → Mk → Bool × Bool × Bool
  | (t, _, pl), .blank => (t, true, pl)
  | (t, pb, _), .block => if pb && t then (false, false, true) else (t, false, false)
  | (t, _, _), .set b => (t, b, false)

def moves (x : Bool × Bool × Bool) (ms : List Mk) : Bool × Bool × Bool := ms.foldl move x

@[simp] theorem moves_nil (x : Bool × Bool × Bool) : moves x [] = x := rfl
@[simp] theorem moves_cons (x : Bool × Bool × Bool) (m : Mk) (ms : List Mk) : moves x (m :: ms) = moves (move x m) ms := rfl
theorem moves_append (x : Bool × Bool × Bool) (a b : List Mk) : moves x (a ++ b) = moves (moves x a) b := by simp [moves]

theorem pend_app (q : Block.TP) (ty0 tyk : Block.ListType) (s : Span) (t pb pl : Bool) (E X : List Block.Event) :
    app (pend q ty0 tyk s t pb pl E) X = pend q ty0 tyk s t pb pl (E ++ X) := by
  simp [app, pend]

theorem pend_mark (q : Block.TP) (ty0 tyk : Block.ListType) (s : Span) (x : Bool × Bool × Bool) (E : List Block.Event) (m : Mk) :
    mark (pend q ty0 tyk s x.1 x.2.1 x.2.2 E) m = pend q ty0 tyk s (move x m).1 (move x m).2.1 (move x m).2.2 E := by
  obtain ⟨t, pb, pl⟩ := x
  cases m with
  | blank => rfl
  | set b => rfl
  | block =>
    cases pb with
    | false => simp [mark, pend, move]
    | true =>
      cases t with
      | false => simp [mark, pend, move, loosen]
      | true => simp [mark, pend, move, loosen]

theorem pend_marks (q : Block.TP) (ty0 tyk : Block.ListType) (s : Span) (x : Bool × Bool × Bool) (E : List Block.Event) (ms : List Mk) :
    marks (pend q ty0 tyk s x.1 x.2.1 x.2.2 E) ms = pend q ty0 tyk s (moves x ms).1 (moves x ms).2.1 (moves x ms).2.2 E := by
  induction ms generalizing x with
  | nil => rfl
  | cons m ms ih => rw [marks_cons, pend_mark, ih]; rfl

theorem pend_close (q : Block.TP) (ty0 tyk : Block.ListType) (s : Span) (t pb : Bool) (E : List Block.Event) (pos : Nat) :
    settle (pend q ty0 tyk s t pb false E) pos
      = app (mark q (.set pb)) (⟨.enter (.container (.list ty0 t)), s⟩ :: (E ++ [⟨.exit (.container (.list ty0 t)), ⟨pos, pos⟩⟩])) := by
  simp [settle, pend, Block.TP.closeList, Block.TP.exit, Block.TP.enterNode, idx, Bind.bind, Except.bind, pure, Except.pure, app, mark]

/-- What is open here is a list, or nothing. -/
def Quiet (p : Block.TP) : Prop := ∀ pos, Calm (settle p pos)

theorem Calm.quiet {p : Block.TP} (h : Calm p) : Quiet p := by
  intro pos
  rw [h.settle]; exact h

/-- A list is open here. -/
def Pending (p : Block.TP) : Prop := ∃ q ty0 tyk s t pb E, Calm q ∧ p = pend q ty0 tyk s t pb false E

theorem Pending.quiet {p : Block.TP} (h : Pending p) : Quiet p := by
  obtain ⟨q, ty0, tyk, s, t, pb, E, hq, rfl⟩ := h
  intro pos
  rw [pend_close]
  exact (hq.mark _).app _

/-- An item that continues a list. -/
theorem beforeBlock_next {q p' : Block.TP} {ty0 tyk ty : Block.ListType} {s : Span} {x : Bool × Bool × Bool} {E : List Block.Event} {b : Block.Prepared} {i : Nat} {lb : Bool}
    (hk : b.kind = .listItem i ty lb) (hty : tyk.continues ty = .ok (some (tyk, ty)))
    (h : (pend q ty0 tyk s x.1 x.2.1 x.2.2 E).beforeBlock b = .ok p') :
    p' = pend q ty0 ty s (move x .block).1 (move x .block).2.1 (move x .block).2.2 E := by
  unfold Block.TP.beforeBlock at h
  obtain ⟨p1, h1, g⟩ := bind_ok h
  clear h
  have e1 : p1 = pend q ty0 ty s x.1 x.2.1 x.2.2 E := by
    simp only [Block.TP.maybeCloseList, pend, dassert, hk, Block.listContinues, hty] at h1
    simp [Bind.bind, Except.bind, pure, Except.pure] at h1
    rw [← h1]
    simp only [pend]
    congr 2
    split
    · rename_i h; rw [h]
    · rfl
  subst e1
  unfold Block.TP.updateLoose at g
  rw [if_neg (by rw [hk]; simp)] at g
  obtain ⟨p2, h2, g2⟩ := bind_ok g
  clear g
  cases g2
  rw [← pend_mark]
  unfold Block.TP.looseAfterBlank at h2
  split at h2
  · rename_i l ls hpb hpl
    have hd : l = ⟨ty0, ty, q.open_.length + 1, q.events.length⟩ := by
      simp only [pend, List.cons.injEq] at hpl; exact hpl.1.symm
    rw [if_pos (.inl (by rw [hd]; simp [pend]))] at h2
    exact setLoose_mark hpl hpb h2
  · rename_i hx
    cases h2
    simp only [mark]

end Jotdown.Round
