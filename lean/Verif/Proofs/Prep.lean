import Verif.Proofs.Forest
/-! # Helper lemmas: extent of a block -/
namespace Jotdown.Block
open Jotdown

theorem Kind.continues_ok {k : Kind} {line : Bytes} (hb : Bd line) (hs : Safe line) :
    Sat Never (k.continues line) (fun _ => True) := by
  have hi := identify_ok hb hs
  unfold Kind.continues
  cases k <;> simp only
  case atom => exact Sat.ok trivial
  case paragraph => exact Sat.ok trivial
  case heading => exact Sat.bind hi (fun _ _ => Sat.ok trivial)
  case fenced =>
    split
    · exact Sat.ok trivial
    · exact Sat.bind hi (fun _ _ => Sat.ok trivial)
  case definition =>
    split
    · exact Sat.bind hi (fun _ _ => Sat.ok trivial)
    · exact Sat.ok trivial
  case blockquote => exact Sat.bind hi (fun _ _ => Sat.ok trivial)
  case listItem => exact Sat.bind hi (fun _ _ => Sat.ok trivial)
  case table => split <;> exact Sat.ok trivial

/-- How the lines of a block continue it. -/
inductive Meas (src : Bytes) : Kind → List Span → Kind → Prop
  | nil {k} : Meas src k [] k
  | done {k k' line} : k.continues line = .ok (false, k') → Meas src k [] k'
  | cons {k k' k'' l ls} : k.continues (sliceOf src l) = .ok (true, k') → Meas src k' ls k'' →
      Meas src k (l :: ls) k''

theorem measure_ok {src : Bytes} (hs : Safe src) {ls : List Span} (k : Kind) (h : ∀ l ∈ ls, SpanOk src l) :
    Sat Never (measure src k ls) (fun r => r.2 ≤ ls.length ∧ Meas src k (ls.take r.2) r.1) := by
  induction ls generalizing k with
  | nil => exact Sat.ok ⟨by simp, .nil⟩
  | cons l ls ih =>
    unfold measure
    have hl := h l (by simp)
    rw [hl.slice]
    have hbs := sliceOf_bd_safe hl hs
    obtain ⟨⟨b, k'⟩, hk, -⟩ := (Kind.continues_ok (k := k) hbs.1 hbs.2).exists_ok
    simp only [Bind.bind, Except.bind, hk]
    cases b with
    | false => exact Sat.ok ⟨by simp, .done hk⟩
    | true =>
      simp only [if_true]
      refine Sat.bind (ih k' (fun l hl => h l (by simp [hl]))) ?_
      intro r hr
      exact Sat.ok ⟨by simp; exact hr.1, .cons hk hr.2⟩

/-- The part of the kind that does not change while measuring. -/
def Kind.core : Kind → Kind
  | .fenced i fl k s _ _ => .fenced i fl k s false none
  | .definition i f l _ => .definition i f l false
  | .listItem i ty _ => .listItem i ty false
  | .table _ _ => .table false false
  | k => k

theorem fenceContinues_core (i fl : Nat) (fk : FenceKind) (s : Bytes) (c : Bool) (n : Option (UInt8 × Nat)) (next : Kind) :
    ∃ c' n', fenceContinues i fl fk s c n next = .fenced i fl fk s c' n' := by
  unfold fenceContinues
  split
  · split
    · split <;> exact ⟨_, _, rfl⟩
    · split
      · exact ⟨_, _, rfl⟩
      · split
        · split <;> exact ⟨_, _, rfl⟩
        · exact ⟨_, _, rfl⟩
  · exact ⟨_, _, rfl⟩

theorem tableContinues_core (c b : Bool) (line : Bytes) : ∃ c' b', (tableContinues c b line).2 = .table c' b' := by
  unfold tableContinues
  simp only
  split
  · exact ⟨_, _, rfl⟩
  · split <;> exact ⟨_, _, rfl⟩

theorem Kind.continues_core {k k' : Kind} {line : Bytes} {b : Bool} (h : k.continues line = .ok (b, k')) :
    k'.core = k.core := by
  unfold Kind.continues at h
  cases k <;> simp only at h
  case atom => simp at h; rw [← h.2]
  case paragraph => simp at h; rw [← h.2]
  case heading =>
    obtain ⟨a, -, h⟩ := bind_ok h; cases h; rfl
  case fenced i fl fk s c n =>
    split at h
    · simp at h; rw [← h.2]
    · obtain ⟨a, -, h⟩ := bind_ok h
      simp only [pure, Except.pure, Except.ok.injEq, Prod.mk.injEq] at h
      obtain ⟨-, h⟩ := h
      obtain ⟨c', n', hc⟩ := fenceContinues_core i fl fk s c n a.1
      rw [hc] at h; rw [← h]; rfl
  case definition =>
    split at h
    · obtain ⟨a, -, h⟩ := bind_ok h; cases h; rfl
    · simp at h; rw [← h.2]
  case blockquote => obtain ⟨a, -, h⟩ := bind_ok h; cases h; rfl
  case listItem => obtain ⟨a, -, h⟩ := bind_ok h; cases h; rfl
  case table =>
    split at h
    · simp at h; rw [← h.2]
    · simp only [Except.ok.injEq] at h
      rename_i c bl _
      obtain ⟨c', b', hc⟩ := tableContinues_core c bl line
      rw [h] at hc; simp only at hc; rw [hc]; rfl

theorem Meas.core {src : Bytes} {k k' : Kind} {ls : List Span} (h : Meas src k ls k') : k'.core = k.core := by
  induction h with
  | nil => rfl
  | done h => exact Kind.continues_core h
  | cons h _ ih => rw [ih, Kind.continues_core h]

theorem Meas.atom {src : Bytes} {a : Atom} {k' : Kind} {ls : List Span} (h : Meas src (.atom a) ls k') : ls = [] := by
  cases h with
  | nil => rfl
  | done => rfl
  | cons h => simp [Kind.continues] at h

theorem Meas.fenced {src : Bytes} {i fl : Nat} {fk : FenceKind} {s : Bytes} {c c' : Bool} {n n' : Option (UInt8 × Nat)}
    {ls : List Span} (h : Meas src (.fenced i fl fk s c n) ls (.fenced i fl fk s c' n')) : c' = true → c = true ∨ ls ≠ [] := by
  intro hc
  cases h with
  | nil => exact Or.inl hc
  | done h =>
    left
    unfold Kind.continues at h
    simp only at h
    split at h
    · simp at h; rw [h.1]; exact hc
    · obtain ⟨a, -, h⟩ := bind_ok h
      simp [pure, Except.pure] at h
  | cons h => exact Or.inr (by simp)

theorem Meas.heading {src : Bytes} {level : Nat} {k' : Kind} {ls : List Span} (h : Meas src (.heading level) ls k') :
    ∀ l ∈ ls, ∃ r, identify (sliceOf src l) = .ok r ∧ (r.1 = .paragraph ∨ r.1 = .heading level) := by
  generalize hk : Kind.heading level = k at h
  induction h with
  | nil => simp
  | done => simp
  | cons h _ ih =>
    subst hk
    simp only [Kind.continues] at h
    obtain ⟨a, ha, h'⟩ := bind_ok h
    simp only [pure, Except.pure, Except.ok.injEq, Prod.mk.injEq, decide_eq_true_eq] at h'
    intro m hm
    rcases List.mem_cons.1 hm with rfl | hm
    · exact ⟨a, ha, h'.1⟩
    · have := ih h'.2 m hm
      rwa [← h'.2] at this

/-! ## Tables -/

/-- A line that can be a row of a table, or a blank line. -/
def RowLine (src : Bytes) (l : Span) : Prop :=
  trim (sliceOf src l) = [] ∨ (trim (sliceOf src l)).head? = some (c! '|')

/-- A line that starts a caption. -/
def CapLine (src : Bytes) (l : Span) : Prop := (b! "^ ").isPrefixOf (trim (sliceOf src l)) = true

/-- The lines of a table: rows and blank lines, then possibly the caption. -/
def TabLines (src : Bytes) (ls : List Span) : Prop :=
  ∃ rows caps, ls = rows ++ caps ∧ (∀ l ∈ rows, RowLine src l) ∧
    (caps = [] ∨ ∃ c rest, caps = c :: rest ∧ CapLine src c)

theorem Meas.table {src : Bytes} {c b : Bool} {k' : Kind} {ls : List Span} (h : Meas src (.table c b) ls k') :
    c = true ∨ TabLines src ls := by
  generalize hk : Kind.table c b = k at h
  induction h generalizing c b with
  | nil => exact Or.inr ⟨[], [], rfl, by simp, Or.inl rfl⟩
  | done => exact Or.inr ⟨[], [], rfl, by simp, Or.inl rfl⟩
  | @cons _ k1 _ l ls h _ ih =>
    subst hk
    cases c with
    | true => exact Or.inl rfl
    | false =>
      right
      simp only [Kind.continues, Bool.false_eq_true, if_false, Except.ok.injEq] at h
      unfold tableContinues at h
      simp only at h
      have key : ∀ b', RowLine src l → k1 = .table false b' → TabLines src (l :: ls) := by
        intro b' hr hk
        rcases ih hk.symm with h1 | ⟨rows, caps, rfl, h2, h3⟩
        · exact absurd h1 (by simp)
        · refine ⟨l :: rows, caps, rfl, ?_, h3⟩
          intro m hm
          rcases List.mem_cons.1 hm with rfl | hm
          · exact hr
          · exact h2 m hm
      split at h
      · rename_i he
        simp at h
        exact key true (Or.inl (by simpa using he)) h.symm
      · split at h
        · rename_i hp
          exact ⟨[], l :: ls, rfl, by simp, Or.inr ⟨l, ls, rfl, hp⟩⟩
        · simp at h
          refine key b (Or.inr ?_) h.2.symm
          have h1 := h.1.1.1.2
          cases ht : trim (sliceOf src l) with
          | nil => rw [ht] at h1; simp at h1
          | cons x xs => rw [ht] at h1; simp [List.isPrefixOf] at h1; simp [h1]

/-! ## Trailing blank lines -/

theorem dropWhile_nil_iff {p : UInt8 → Bool} {s : Bytes} : s.dropWhile p = [] ↔ ∀ c ∈ s, p c = true := by
  induction s with
  | nil => simp
  | cons c s ih =>
    rw [List.dropWhile_cons]
    by_cases h : p c = true
    · simp [h, ih]
    · simp [h]

theorem isBlank_iff (s : Bytes) : isBlank s = true ↔ trim s = [] := by
  unfold isBlank trim trimStart trimEnd
  constructor
  · intro h
    have : s.dropWhile isWs = [] := by
      rw [dropWhile_nil_iff]; exact List.all_eq_true.1 h
    rw [this]; rfl
  · intro h
    rw [List.reverse_eq_nil_iff, dropWhile_nil_iff] at h
    rw [List.all_eq_true]
    intro c hc
    rw [← List.takeWhile_append_dropWhile (p := isWs) (l := s)] at hc
    rcases List.mem_append.1 hc with h1 | h1
    · exact List.all_eq_true.1 List.all_takeWhile c h1
    · exact h c (by simpa using h1)

theorem trailingBlank_ok {src : Bytes} {ls : List Span} (h : ∀ l ∈ ls, SpanOk src l) :
    Sat Never (trailingBlank src ls) (fun n => n ≤ ls.length ∧ ∀ l ∈ ls.take n, isBlank (sliceOf src l) = true) := by
  induction ls with
  | nil => exact Sat.ok ⟨by simp, by simp⟩
  | cons l ls ih =>
    unfold trailingBlank
    rw [(h l (by simp)).slice]
    simp only [Bind.bind, Except.bind]
    split
    · rename_i hb
      refine Sat.bind (ih (fun l hl => h l (by simp [hl]))) ?_
      intro n hn
      refine Sat.ok ⟨by simp; exact hn.1, ?_⟩
      intro m hm
      rw [List.take_succ_cons] at hm
      rcases List.mem_cons.1 hm with rfl | hm
      · exact hb
      · exact hn.2 m hm
    · exact Sat.ok ⟨by simp, by simp⟩

theorem trimTable_ok {src : Bytes} {k : Kind} {l : Span} {ls : List Span} (h : ∀ m ∈ l :: ls, SpanOk src m)
    (hk : k = .table false true → isBlank (sliceOf src l) = false) :
    Sat Never (trimTable src k (l :: ls)) (fun r => ∃ n, r = l :: ls.take n ∧ (k ≠ .table false true → n = ls.length) ∧
      n ≤ ls.length) := by
  by_cases hkt : k = .table false true
  · subst hkt
    unfold trimTable
    refine Sat.bind (trailingBlank_ok (ls := (l :: ls).reverse) (fun m hm => h m (List.mem_reverse.1 hm))) ?_
    intro n hn
    simp only [List.length_reverse] at hn
    have hn1 : n ≤ ls.length := by
      by_cases hx : n ≤ ls.length
      · exact hx
      · exfalso
        have he : n = (l :: ls).length := by have := hn.1; simp at *; omega
        have hb := hn.2 l (by rw [he, List.take_of_length_le (by simp)]; simp)
        rw [hk rfl] at hb; exact absurd hb (by simp)
    have : csub (l :: ls).length n = .ok ((l :: ls).length - n) := by
      unfold csub; rw [if_pos hn.1]
    rw [this]
    refine Sat.ok ⟨ls.length - n, ?_, by simp, by omega⟩
    have : (l :: ls).length - n = (ls.length - n) + 1 := by simp; omega
    rw [this, List.take_succ_cons]
  · have : trimTable src k (l :: ls) = .ok (l :: ls) := by
      unfold trimTable
      split
      · exact absurd rfl hkt
      · rfl
    rw [this]
    exact Sat.ok ⟨ls.length, by simp, fun _ => rfl, Nat.le_refl _⟩

/-! ## Headings -/

theorem countWhile_cons (p : UInt8 → Bool) (c : UInt8) (s : Bytes) :
    Lex.countWhile p (c :: s) = if p c then 1 + Lex.countWhile p s else 0 := by
  unfold Lex.countWhile
  rw [List.takeWhile_cons]
  split <;> simp [Nat.add_comm]

theorem identify_hash {line : Bytes} {r : Kind × Span}
    (h : identify line = .ok r) (hd : (line.dropWhile (fun c => isWs c && c != c! '\n')).head? = some (c! '#'))
    (hw : noneOrWs ((line.dropWhile (fun c => isWs c && c != c! '\n')).dropWhile (· == c! '#')) = true) :
    r.1 = .heading (Lex.countWhile (· == c! '#') (line.dropWhile (fun c => isWs c && c != c! '\n'))) := by
  unfold identify at h
  simp only at h
  generalize line.dropWhile (fun c => isWs c && c != c! '\n') = l at *
  cases l with
  | nil => simp at hd
  | cons c cs =>
    simp at hd; subst hd
    simp only at h
    unfold identMatch at h
    rw [if_neg (by decide), if_pos rfl] at h
    have : cs.dropWhile (· == c! '#') = (c! '#' :: cs).dropWhile (· == c! '#') := by simp
    rw [this, if_pos hw] at h
    simp only [Bind.bind, Except.bind, pure, Except.pure, Except.ok.injEq] at h
    rw [← h]; rfl

theorem countWhile_dropWhile (p : UInt8 → Bool) (s : Bytes) : s.drop (Lex.countWhile p s) = s.dropWhile p := by
  have h := List.takeWhile_append_dropWhile (p := p) (l := s)
  conv => lhs; arg 2; rw [← h]
  unfold Lex.countWhile
  rw [List.drop_left]

theorem dropWhile_length (p : UInt8 → Bool) (s : Bytes) : (s.dropWhile p).length = s.length - Lex.countWhile p s := by
  rw [← countWhile_dropWhile]; simp

/-- A line that continues a heading or paragraph is not blank, so it has no newline before its text. -/
theorem identify_nonblank {line : Bytes} {r : Kind × Span} (h : identify line = .ok r)
    (hr : r.1 ≠ .atom .blankline) :
    line.dropWhile (fun c => isWs c && c != c! '\n') = line.dropWhile isWs ∧ line.dropWhile isWs ≠ [] := by
  have h1 : (line.dropWhile (fun c => isWs c && c != c! '\n')).dropWhile isWs = line.dropWhile isWs := by
    clear h
    induction line with
    | nil => rfl
    | cons c s ih =>
      by_cases hc : isWs c = true
      · by_cases hn : c = c! '\n'
        · subst hn; simp
        · simp [List.dropWhile_cons, hc, hn]; simpa using ih
      · simp [List.dropWhile_cons, hc]
  unfold identify at h
  simp only at h
  cases hl : line.dropWhile (fun c => isWs c && c != c! '\n') with
  | nil =>
    simp only [hl, Except.ok.injEq] at h
    rw [← h] at hr; simp at hr
  | cons c cs =>
    have hh : (isWs c && c != c! '\n') = false := by
      have := List.head?_dropWhile_not (fun c => isWs c && c != c! '\n') line
      rw [hl] at this
      simpa using this
    have hcn : c ≠ c! '\n' := by
      intro hcn; subst hcn
      simp only [hl] at h
      unfold identMatch at h
      rw [if_pos rfl] at h
      simp only [Bind.bind, Except.bind, pure, Except.pure, Except.ok.injEq] at h
      rw [← h] at hr; simp at hr
    have hws : isWs c = false := by
      cases hw : isWs c with
      | false => rfl
      | true => simp [hw, hcn] at hh
    rw [hl, List.dropWhile_cons, hws] at h1
    simp only [Bool.false_eq_true, if_false] at h1
    rw [← h1]
    exact ⟨rfl, by simp⟩

theorem headingLine_ok {src : Bytes} (hs : Safe src) {level : Nat} {l : Span} (hl : SpanOk src l)
    (h : ∃ r, identify (sliceOf src l) = .ok r ∧ (r.1 = .paragraph ∨ r.1 = .heading level)) :
    Sat Never (headingLine src level l) (fun r => SubSpan src l r ∧ r.stop = l.stop) := by
  obtain ⟨r, hr, hk⟩ := h
  have hbs := sliceOf_bd_safe hl hs
  obtain ⟨hn1, hn2⟩ := identify_nonblank hr (by rcases hk with h | h <;> rw [h] <;> simp)
  unfold headingLine
  have hbsl : byteSlice src l.start l.stop = .ok (sliceOf src l) := by
    unfold byteSlice sliceOf; rw [if_pos ⟨hl.le, hl.len⟩]
  rw [hbsl]
  simp only [Bind.bind, Except.bind]
  rw [countWhile_dropWhile]
  split
  · rename_i hpw
    -- the text after the hashes starts with whitespace
    have hws : noneOrWs (((sliceOf src l).dropWhile isWs).dropWhile (· == c! '#')) = true := by
      cases hx : ((sliceOf src l).dropWhile isWs).dropWhile (· == c! '#') with
      | nil => rfl
      | cons x xs =>
        rw [hx, countWhile_cons] at hpw
        unfold noneOrWs
        cases hw : isWs x with
        | true => simp [hw]
        | false => simp [hw] at hpw
    have hhash : ((sliceOf src l).dropWhile isWs).head? = some (c! '#') := by
      cases hx : (sliceOf src l).dropWhile isWs with
      | nil => exact absurd hx hn2
      | cons x xs =>
        have hxw : isWs x = false := by
          have := List.head?_dropWhile_not isWs (sliceOf src l)
          rw [hx] at this; simpa using this
        by_cases hxh : x = c! '#'
        · subst hxh; rfl
        · exfalso
          rw [hx, List.dropWhile_cons] at hpw
          simp [hxh, countWhile_cons, hxw] at hpw
    rw [← hn1] at hhash hws
    have hkind := identify_hash hr hhash hws
    rw [hn1] at hkind
    have hlev : level = Lex.countWhile (· == c! '#') ((sliceOf src l).dropWhile isWs) := by
      rcases hk with h | h
      · rw [h] at hkind; simp at hkind
      · rw [h] at hkind; simpa using hkind
    have : dassert (level == Lex.countWhile (· == c! '#') ((sliceOf src l).dropWhile isWs)) = .ok () := by
      rw [← hlev]; simp [dassert]
    rw [this]
    simp only
    rw [countWhile_dropWhile]
    generalize hl3 : ((((sliceOf src l).dropWhile isWs).dropWhile (· == c! '#')).dropWhile isWs) = l3
    have hlen : l3.length ≤ (sliceOf src l).length ∧ l3 = (sliceOf src l).drop ((sliceOf src l).length - l3.length) := by
      rw [← hl3]
      have hsuf : (((sliceOf src l).dropWhile isWs).dropWhile (· == c! '#')).dropWhile isWs <:+ sliceOf src l :=
        (List.dropWhile_suffix _).trans ((List.dropWhile_suffix _).trans (List.dropWhile_suffix _))
      refine ⟨hsuf.length_le, ?_⟩
      exact List.suffix_iff_eq_drop.1 hsuf
    have hbd : Bd l3 := by
      rw [← hl3]
      have h1 := dropWhile_bd (p := isWs) (fun c hc => isWs_lt hc) hbs.1 hbs.2
      have h2 := dropWhile_bd (p := (· == c! '#')) (by intro c hc; simp at hc; rw [hc]; decide) h1.1 h1.2
      exact (dropWhile_bd (p := isWs) (fun c hc => isWs_lt hc) h2.1 h2.2).1
    have hsl := sliceOf_length hl
    have hc : csub l.len l3.length = .ok (l.len - l3.length) := by
      unfold csub Span.len; rw [if_pos (by omega)]
    rw [hc]
    refine Sat.ok ⟨⟨hl.advance ?_ ?_, by simp, by simp⟩, rfl⟩
    · simp [Span.len]
    · have : l.len - l3.length = (sliceOf src l).length - l3.length := by rw [hsl]; rfl
      rw [this, ← hlen.2]; exact hbd
  · exact Sat.ok ⟨.refl hl, rfl⟩

end Jotdown.Block
