import Verif.Proofs.RoundBlock
import Verif.Proofs.Cont
/-! # Round trip: lines of list items -/
namespace Jotdown.Round
open Jotdown Jotdown.Notation

/-! ## Identifying lines -/

theorem identMatch_blank {indent : Nat} {line lineT chars : Bytes} {first : UInt8} {r : Option (Block.Kind × Span)}
    (h : Block.identMatch indent line lineT first chars = .ok r) {s : Span} (hr : r = some (.atom .blankline, s)) : first = c! '\n' := by
  subst hr
  unfold Block.identMatch at h
  repeat' split at h
  all_goals first
    | assumption
    | (simp at h; done)
    | (simp [Block.identBullet] at h; done)
    | skip
  · obtain ⟨v, -, h⟩ := bind_ok h
    simp only [pure, Except.pure] at h
    split at h <;> simp at h
  · unfold Block.identDefinition at h
    split at h
    · simp at h
    · obtain ⟨v, -, h⟩ := bind_ok h
      split at h
      · obtain ⟨w, -, h⟩ := bind_ok h
        obtain ⟨x, -, h⟩ := bind_ok h
        simp [pure, Except.pure] at h
      · simp [pure, Except.pure] at h
  · simp only [Block.identBullet, Except.ok.injEq] at h
    repeat' split at h
    all_goals simp at h
  · unfold Block.identFence at h
    obtain ⟨v, -, h⟩ := bind_ok h
    simp only [] at h
    generalize (if first = c! ':' then (trimStart v).all Attr.isName else !(trimStart v).any isWs && !(trimStart v).any (· == c! '`')) = vs at h
    split at h
    · simp [pure, Except.pure] at h
    · simp [pure, Except.pure] at h
  · obtain ⟨v, -, h⟩ := bind_ok h
    simp only [pure, Except.pure, Except.ok.injEq] at h
    cases v <;> simp at h

theorem notBlank_ident {c : UInt8} {cs : Bytes} (hc : isWs c = false) {r : Block.Kind × Span} (h : Block.identify (c :: cs) = .ok r) : r.1 ≠ .atom .blankline := by
  intro he
  rw [identify_cons (.inl hc)] at h
  obtain ⟨o, h1, h2⟩ := bind_ok h
  cases h2
  cases o with
  | none => simp at he
  | some x =>
    obtain ⟨k, sp⟩ := x
    simp only [Option.getD_some] at he
    subst he
    have := identMatch_blank h1 rfl
    subst this
    exact absurd hc (by decide)

theorem ws_ident {l : Bytes} (h : l.all isWs = true) {r : Block.Kind × Span} (hr : Block.identify l = .ok r) : r.1 = .atom .blankline := by
  rw [Block.identify_eq] at hr
  cases hd : l.dropWhile Block.isInnerWs with
  | nil => rw [hd] at hr; cases hr; rfl
  | cons x xs =>
    have hm : x ∈ l := (List.dropWhile_sublist _).mem (by rw [hd]; simp)
    have hx : isWs x = true := List.all_eq_true.1 h x hm
    have hn : x = c! '\n' := by
      have := List.head?_dropWhile_not Block.isInnerWs l
      rw [hd] at this
      simp only [List.head?_cons] at this
      unfold Block.isInnerWs at this
      simpa [hx] using this
    subst hn
    rw [hd] at hr
    simp only at hr
    have : ∀ i a b d, Block.identMatch i a b (c! '\n') d = .ok (some (.atom .blankline, ⟨i, i + 1⟩)) := by
      intro i a b d
      unfold Block.identMatch
      rw [if_pos rfl]
    rw [this] at hr
    cases hr
    rfl

/-! ## How far an item extends -/

theorem leadingWs_pad (k : Nat) (l : Bytes) : k ≤ Block.leadingWs (spaces k ++ l) := by
  unfold Block.leadingWs Lex.countWhile spaces
  induction k with
  | zero => omega
  | succ k ih =>
    rw [List.replicate_succ, List.cons_append, List.takeWhile_cons_of_pos (by decide)]
    simp only [List.length_cons]
    omega

/-- List items and footnotes: blocks with indented lines. -/
structure Indents (mk : Bool → Block.Kind) : Prop where
  cont : ∀ lb line, (mk lb).continues line = (Block.identify line).bind fun r =>
    pure (decide (r.1 = .atom .blankline) || decide (0 < Block.leadingWs line) || (!lb && decide (r.1 = .paragraph)), mk (decide (r.1 = .atom .blankline)))
  pre : ∀ lb o line, Block.prefixLen (mk lb) o line = Block.prefixLen (.listItem 0 (.unordered 0) false) o line

theorem indents_item (ty : Block.ListType) : Indents (Block.Kind.listItem 0 ty) := ⟨fun _ _ => rfl, fun _ _ _ => rfl⟩

theorem indents_foot (label : Bytes) : Indents (Block.Kind.definition 0 true label) := by
  refine ⟨fun lb line => ?_, fun _ _ _ => rfl⟩
  simp only [Block.Kind.continues, ↓reduceIte, Bind.bind]
  congr 1
  funext r
  rw [Bool.or_comm (decide (0 < Block.leadingWs line))]

theorem item_line {mk : Bool → Block.Kind} (hm : Indents mk) {k : Nat} (hk : 0 < k) (lb : Bool) (l : Bytes) :
    ∃ lb', ∀ r, (mk lb).continues (padded k l) = .ok r → r = (true, mk lb') := by
  cases hi : Block.identify (padded k l) with
  | error e => exact ⟨false, fun r hr => by simp [hm.cont, hi, Except.bind] at hr⟩
  | ok q =>
    obtain ⟨next, sp⟩ := q
    refine ⟨decide (next = .atom .blankline), fun r hr => ?_⟩
    simp only [hm.cont, hi, Except.bind, pure, Except.pure, Except.ok.injEq] at hr
    rw [← hr]
    congr 1
    by_cases hw : l.all isWs = true
    · have : padded k l = l := by unfold padded; rw [if_pos hw]
      rw [this] at hi
      have := ws_ident hw hi
      simp only at this
      simp [this]
    · have : padded k l = spaces k ++ l := by unfold padded; rw [if_neg hw]; rfl
      rw [this]
      have := leadingWs_pad k l
      have h0 : decide (0 < Block.leadingWs (spaces k ++ l)) = true := by simp; omega
      rw [h0]
      simp

/-- Indented lines continue an item. -/
theorem item_runs {mk : Bool → Block.Kind} (hm : Indents mk) {k : Nat} (hk : 0 < k) (lb : Bool) (A : List Bytes) :
    ∃ lb', Runs (mk lb) (A.map (padded k)) (mk lb') := by
  induction A generalizing lb with
  | nil => exact ⟨lb, rfl⟩
  | cons l A ih =>
    obtain ⟨lb1, h1⟩ := item_line hm hk lb l
    obtain ⟨lb2, h2⟩ := ih lb1
    exact ⟨lb2, _, fun r _ _ hr => h1 r hr, h2⟩

theorem countNl_pad (k : Nat) (l : Bytes) : k ≤ Lex.countWhile (· != c! '\n') (spaces k ++ l) := by
  unfold Lex.countWhile spaces
  induction k with
  | zero => omega
  | succ k ih =>
    rw [List.replicate_succ, List.cons_append, List.takeWhile_cons_of_pos (by decide)]
    simp only [List.length_cons]
    omega

/-- A blank line, if there is one. -/
def blankLine (after : Bool) : List Bytes := if after then [[c! '\n']] else []

theorem sep_blank (bs : List Blk) : sep bs = blankLine (!bs.isEmpty) := by cases bs <;> rfl

theorem itemSep_blank (tight : Bool) (its : List (List Blk)) : itemSep tight its = blankLine (!its.isEmpty && !tight) := by
  cases its <;> cases tight <;> rfl

theorem blankLine_pad (k : Nat) (a : Bool) : (blankLine a).map (padded k) = blankLine a := by cases a <;> rfl

theorem item_runs_blank {mk : Bool → Block.Kind} (hm : Indents mk) {k : Nat} (hk : 0 < k) (lb : Bool) (A : List Bytes) (a : Bool) :
    ∃ lb', (a = true → lb' = true) ∧ Runs (mk lb) (A.map (padded k) ++ blankLine a) (mk lb') := by
  obtain ⟨lb1, h1⟩ := item_runs hm hk lb A
  cases a with
  | false => exact ⟨lb1, by simp, by simpa [blankLine] using h1⟩
  | true =>
    refine ⟨true, by simp, h1.append ⟨_, ?_, rfl⟩⟩
    intro r _ _ hr
    have : Block.identify [c! '\n'] = .ok (.atom .blankline, ⟨0, 1⟩) := rfl
    simp only [hm.cont, this, Except.bind, pure, Except.pure, Except.ok.injEq] at hr
    rw [← hr]
    simp

/-- The line of another item. -/
def MarkerLine (l : Bytes) : Prop :=
  ∃ (lb : Label) (c : UInt8) (cs : Bytes), lb.Ok ∧ l = lb.text ++ c! ' ' :: c :: cs ∧ isWs c = false ∧ FirstOk (c :: cs)

/-- A line that starts neither with whitespace nor like the caption of a table. -/
def Flush (l : Bytes) : Prop := ∃ (c : UInt8) (cs : Bytes), l = c :: cs ∧ isWs c = false ∧ (b! "^ ").isPrefixOf l = false

theorem notCap {c : UInt8} (h : c ≠ c! '^') (cs : Bytes) : (b! "^ ").isPrefixOf (c :: cs) = false := by
  simp [List.isPrefixOf]
  intro he
  exact absurd he.symm h

/-- What may come after an item. -/
def Follow (a : Bool) (R : List Bytes) : Prop := R = [] ∨ ∃ l R', R = l :: R' ∧ (MarkerLine l ∨ (a = true ∧ Flush l))

theorem label_head {lb : Label} (h : lb.Ok) : ∃ (c : UInt8) (cs : Bytes), lb.text = c :: cs ∧ isWs c = false ∧ c ≠ c! '^' := by
  cases lb with
  | bullet b => exact ⟨bulletChar b, [], rfl, by cases b <;> decide⟩
  | desc => exact ⟨c! ':', [], rfl, by decide⟩
  | task b x => exact ⟨bulletChar b, _, rfl, by cases b <;> decide⟩
  | ordered k s n =>
    simp only [Label.Ok] at h
    obtain ⟨h1, h2, -⟩ := h
    cases n with
    | nil => exact absurd rfl h1
    | cons c n =>
      have hc := h2 c (by simp)
      have hw : isWs c = false := by
        cases hw : isWs c with
        | false => rfl
        | true =>
          exfalso
          simp only [isWs, Bool.or_eq_true, beq_iff_eq] at hw
          rcases hw with (((h | h) | h) | h) | h <;> subst h <;> cases k <;> revert hc <;> simp [Numbers.IsDigitOf] <;> decide
      have hcap : c ≠ c! '^' := by
        rintro rfl
        revert hc
        cases k <;> simp [Numbers.IsDigitOf] <;> decide
      cases s with
      | period => exact ⟨c, _, rfl, hw, hcap⟩
      | paren => exact ⟨c, _, rfl, hw, hcap⟩
      | parenParen => exact ⟨c! '(', _, rfl, by decide⟩

theorem label_pos {lb : Label} (h : lb.Ok) : 0 < lb.text.length := by
  obtain ⟨c, cs, e, -⟩ := label_head h
  rw [e]; simp

theorem MarkerLine.flush {l : Bytes} (h : MarkerLine l) : Flush l := by
  obtain ⟨lb, c, cs, h1, rfl, -⟩ := h
  obtain ⟨d, ds, e, hw, hcap⟩ := label_head h1
  exact ⟨d, ds ++ c! ' ' :: c :: cs, by rw [e]; rfl, hw, by rw [e]; exact notCap hcap _⟩

theorem item_stops {mk : Bool → Block.Kind} (hm : Indents mk) {a lb : Bool} {R : List Bytes} (hR : Follow a R) (hlb : a = true → lb = true) :
    ∃ lb', StopsAs (mk lb) R (mk lb') := by
  rcases hR with rfl | ⟨l, R', rfl, h⟩
  · exact ⟨lb, rfl⟩
  · refine ⟨false, ?_⟩
    intro r hb hs hr
    have hfl : Flush l := by
      rcases h with h | h
      · exact h.flush
      · exact h.2
    obtain ⟨c, cs, rfl, hw, -⟩ := hfl
    rw [hm.cont] at hr
    obtain ⟨⟨next, sp⟩, h1, h2⟩ := bind_ok hr
    have hne := notBlank_ident hw h1
    have hlw : Block.leadingWs (c :: cs) = 0 := countWhile_zero (by intro d hd; simp at hd; subst hd; exact hw)
    have hpara : (!lb && decide (next = .paragraph)) = false := by
      rcases h with h | h
      · obtain ⟨lb2, d, ds, g1, g2, g3, g4⟩ := h
        rw [g2] at h1 hs
        have := label_ident g1 g4 hs h1
        simp only [Prod.mk.injEq] at this
        rw [this.1]; simp
      · rw [hlb h.1]; rfl
    simp only [hne, hlw, hpara, pure, Except.pure, Except.ok.injEq] at h2
    rw [← h2]
    simp

/-! ## Removing the indentation -/

theorem trim_empty {l : Bytes} (h : l.all isWs = true) : Jotdown.trim l = [] := by
  have : Jotdown.trimStart l = [] := by
    unfold Jotdown.trimStart
    have := Block.dropWhile_append_all (p := isWs) (a := l) (b := []) (List.all_eq_true.1 h)
    simpa using this
  unfold Jotdown.trim
  rw [this]; rfl

theorem trim_nonempty {l : Bytes} (h : ¬ l.all isWs = true) : (Jotdown.trim l).isEmpty = false := by
  simp only [List.all_eq_true, Classical.not_forall] at h
  obtain ⟨c, hc, hw⟩ := h
  have h1 : ∃ x xs, Jotdown.trimStart l = x :: xs ∧ isWs x = false := by
    unfold Jotdown.trimStart
    cases hd : l.dropWhile isWs with
    | nil =>
      exfalso
      have : ∀ s : Bytes, c ∈ s → s.dropWhile isWs ≠ [] := by
        intro s hs
        induction s with
        | nil => cases hs
        | cons y ys ih =>
          rw [List.dropWhile_cons]
          split
          · rename_i hy
            rcases List.mem_cons.1 hs with rfl | hs
            · exact absurd hy hw
            · exact ih hs
          · simp
      exact this l hc hd
    | cons x xs =>
      refine ⟨x, xs, rfl, ?_⟩
      have := List.head?_dropWhile_not isWs l
      rw [hd] at this
      simpa using this
  obtain ⟨x, xs, e, hx⟩ := h1
  unfold Jotdown.trim
  rw [e]
  have hk := trimEnd_keep [] hx xs
  obtain ⟨Z, hz⟩ := hk
  simp only [List.nil_append] at hz
  rw [hz]; rfl

theorem itemLine_text {mk : Bool → Block.Kind} (hm : Indents mk) {src : Bytes} {k : Nat} {lb : Bool} {sp sp' : Span} {l : Bytes} (hok : Block.SpanOk src sp) (hl : textAt src sp = padded k l)
    (h : Block.containerLine src (mk lb) k sp = .ok sp') : textAt src sp' = l := by
  unfold Block.containerLine at h
  have htx : textAt src sp = Block.sliceOf src sp := rfl
  rw [hok.slice, ← htx, hl] at h
  simp only [hm.pre, Bind.bind, Except.bind] at h
  simp only [Block.prefixLen, pure, Except.pure, Except.ok.injEq] at h
  subst h
  rw [textAt_drop, hl]
  by_cases hb : l.all isWs = true
  · have : padded k l = l := by unfold padded; rw [if_pos hb]
    rw [this, trim_empty hb]
    simp
  · have e : padded k l = spaces k ++ l := by unfold padded; rw [if_neg hb]; rfl
    have hnb : ¬ (spaces k ++ l).all isWs = true := by
      simp only [List.all_append, Bool.and_eq_true]
      exact fun h => hb h.2
    rw [e, trim_nonempty hnb]
    simp only [Bool.false_eq_true, ↓reduceIte]
    have h1 := leadingWs_pad k l
    have h2 : k ≤ Lex.countWhile (· != c! '\n') (spaces k ++ l) := by
      exact countNl_pad k l
    rw [Nat.min_eq_right h1, Nat.min_eq_left h2]
    have hsl : (spaces k).length = k := by simp [spaces]
    rw [List.drop_append_of_le_length (by omega), List.drop_of_length_le (by omega)]
    rfl

theorem mapLines_item {mk : Bool → Block.Kind} (hm : Indents mk) {src : Bytes} {k : Nat} {lb : Bool} {L : List Bytes} {ls ls' : List Span} (hok : ∀ l ∈ ls, Block.SpanOk src l)
    (hl : ls.map (textAt src) = L.map (padded k)) (h : Block.mapLines (Block.containerLine src (mk lb) k) ls = .ok ls') : ls'.map (textAt src) = L := by
  induction ls generalizing ls' L with
  | nil => cases h; cases L with
    | nil => rfl
    | cons _ _ => simp at hl
  | cons l ls ih =>
    cases L with
    | nil => simp at hl
    | cons x L =>
      simp only [List.map_cons, List.cons.injEq] at hl
      rw [Block.mapLines] at h
      obtain ⟨s, h1, h2⟩ := bind_ok h
      obtain ⟨ss, h3, h4⟩ := bind_ok h2
      cases h4
      rw [List.map_cons, itemLine_text hm (hok l (by simp)) hl.1 h1, ih (fun m hm => hok m (List.mem_cons_of_mem _ hm)) hl.2 h3]

/-! ## The container of an item -/

theorem item_block {src : Bytes} {lb : Label} {sp : Span} {l : Bytes} {x : Bool} {top : Bool} {blk : Block.Blk} (hok : Block.SpanOk src sp) (hl : textAt src sp = lb.text ++ l)
    (h : Block.mkBlock src (.listItem 0 lb.ty x) top sp.start = .ok blk) : blk = .container (.listItem lb.itemKind) := by
  cases lb with
  | bullet b => simp [Label.ty, Block.mkBlock] at h; rw [← h]; rfl
  | desc => simp [Label.ty, Block.mkBlock] at h; rw [← h]; rfl
  | ordered k s n => simp [Label.ty, Block.mkBlock] at h; rw [← h]; rfl
  | task b checked =>
    simp only [Label.ty, Block.mkBlock] at h
    obtain ⟨c, h1, h2⟩ := bind_ok h
    cases h2
    have hlen := Block.sliceOf_length hok
    have hx : Block.sliceOf src sp = (Label.task b checked).text ++ l := hl
    rw [hx] at hlen
    have h4 : (Label.task b checked).text.length = 5 := by cases checked <;> rfl
    rw [List.length_append, h4] at hlen
    have hget : src[sp.start + 3]? = ((Label.task b checked).text ++ l)[3]? := by
      rw [← hl]
      unfold textAt
      rw [List.getElem?_take_of_lt (by omega), List.getElem?_drop]
    unfold idx at h1
    rw [hget] at h1
    cases checked with
    | true =>
      have : ((Label.task b true).text ++ l)[3]? = some (c! 'x') := rfl
      rw [this] at h1
      cases h1
      rfl
    | false =>
      have : ((Label.task b false).text ++ l)[3]? = some (c! ' ') := rfl
      rw [this] at h1
      cases h1
      rfl

/-- Labels of the same list. -/
theorem like_continues {a b c : Label} (h1 : a.like b) (h2 : a.like c) : b.ty.continues c.ty = .ok (some (b.ty, c.ty)) := by
  unfold Block.ListType.continues
  by_cases he : b.ty = c.ty
  · rw [if_pos he]
  · rw [if_neg he]
    cases a <;> cases b <;> simp only [Label.like] at h1 <;> cases c <;> simp only [Label.like] at h2
    · subst h1; subst h2; exact absurd rfl he
    · subst h1; subst h2; exact absurd rfl he
    · simp only [Label.ty]
      rw [if_pos ⟨h1.1.symm.trans h2.1, h1.2.symm.trans h2.2⟩]
    · exact absurd rfl he

end Jotdown.Round
