import Verif.Proofs.RoundIdent
import Verif.Proofs.MarkerOne
/-! # Round trip: indented lines, and the first lines of list items -/
namespace Jotdown.Round
open Jotdown Jotdown.Notation

/-- The type of a list with this label on an item. -/
def Label.ty : Label → Block.ListType
  | .bullet b => .unordered (bulletChar b)
  | .task b _ => .task (bulletChar b)
  | .ordered k s n => .ordered ⟨k, (Numbers.numeralValue k n).toNat⟩ s
  | .desc => .description

def spaces (k : Nat) : Bytes := List.replicate k (c! ' ')

/-- Only the first line is indented. -/
def lead (k : Nat) : List Bytes → List Bytes
  | [] => []
  | l :: L => (spaces k ++ l) :: L

@[simp] theorem lead_zero (L : List Bytes) : lead 0 L = L := by cases L <;> rfl

/-- Further indented. -/
def deeper (k : Nat) : Block.Kind → Block.Kind
  | .fenced i n f s c nr => .fenced (i + k) n f s c nr
  | .definition i f l b => .definition (i + k) f l b
  | .listItem i t b => .listItem (i + k) t b
  | x => x

def shiftRead (k : Nat) : Block.Kind × Span → Block.Kind × Span
  | (.definition i f l b, sp) => (.definition (i + k) f l b, ⟨sp.start, sp.stop + k⟩)
  | (x, sp) => (deeper k x, ⟨sp.start + k, sp.stop + k⟩)

theorem shiftRead_fst (k : Nat) (r : Block.Kind × Span) : (shiftRead k r).1 = deeper k r.1 := by
  obtain ⟨x, sp⟩ := r
  cases x <;> rfl

theorem identMatch_shift {i k : Nat} {line lineT chars : Bytes} {f : UInt8} {o : Option (Block.Kind × Span)}
    (h : Block.identMatch (i + k) line lineT f chars = .ok o) : ∃ o', Block.identMatch i line lineT f chars = .ok o' ∧ o = o'.map (shiftRead k) := by
  unfold Block.identMatch at h ⊢
  split at h
  · rename_i h1; rw [if_pos h1]; cases h; exact ⟨_, rfl, by simp [shiftRead, deeper]; omega⟩
  rename_i h1; rw [if_neg h1]
  split at h
  · rename_i h2; rw [if_pos h2]; cases h
    refine ⟨_, rfl, ?_⟩
    split
    · simp [shiftRead, deeper]; omega
    · rfl
  rename_i h2; rw [if_neg h2]
  split at h
  · rename_i h3; rw [if_pos h3]; cases h
    refine ⟨_, rfl, ?_⟩
    split
    · simp [shiftRead, deeper]; omega
    · rfl
  rename_i h3; rw [if_neg h3]
  split at h
  · rename_i h4; rw [if_pos h4]
    obtain ⟨v, hv, g⟩ := bind_ok h
    cases g
    rw [hv]
    refine ⟨_, rfl, ?_⟩
    split
    · simp [shiftRead, deeper]; omega
    · rfl
  rename_i h4; rw [if_neg h4]
  split at h
  · rename_i h5; rw [if_pos h5]; cases h
    refine ⟨_, rfl, ?_⟩
    split
    · simp [shiftRead, deeper]
    · rfl
  rename_i h5; rw [if_neg h5]
  split at h
  · rename_i h6; rw [if_pos h6]
    unfold Block.identDefinition at h ⊢
    split at h
    · cases h; exact ⟨_, rfl, rfl⟩
    · obtain ⟨v, hv, g⟩ := bind_ok h
      simp only [hv, Bind.bind, Except.bind]
      split at g
      · rename_i hc
        rw [if_pos hc]
        obtain ⟨w, hw, g⟩ := bind_ok g
        obtain ⟨x, hx, g⟩ := bind_ok g
        cases g
        rw [hw]
        simp only
        rw [hx]
        exact ⟨_, rfl, by simp [shiftRead]; omega⟩
      · rename_i hc
        rw [if_neg hc]
        cases g
        exact ⟨_, rfl, rfl⟩
  rename_i h6; rw [if_neg h6]
  split at h
  · rename_i h7; rw [if_pos h7]; cases h; exact ⟨_, rfl, by simp [shiftRead, deeper]; omega⟩
  rename_i h7; rw [if_neg h7]
  split at h
  · rename_i h8; rw [if_pos h8]; cases h
    refine ⟨_, rfl, ?_⟩
    unfold Block.identBullet
    generalize Block.isTask (List.drop 1 chars) = g2
    cases chars with
    | nil => cases g2 <;> simp [shiftRead, deeper] <;> omega
    | cons c cs =>
      simp only
      by_cases hc : (c == c! ' ') = true
      · rw [if_pos hc, if_pos hc]
        cases g2 <;> simp [shiftRead, deeper] <;> omega
      · rw [if_neg hc, if_neg hc]
        rfl
  rename_i h8; rw [if_neg h8]
  split at h
  · rename_i h9; rw [if_pos h9]; cases h; exact ⟨_, rfl, by simp [shiftRead, deeper]; omega⟩
  rename_i h9; rw [if_neg h9]
  split at h
  · rename_i h10; rw [if_pos h10]
    unfold Block.identFence at h ⊢
    obtain ⟨v, hv, g⟩ := bind_ok h
    simp only [hv, Bind.bind, Except.bind]
    simp only [pure, Except.pure] at g ⊢
    generalize ((if f = c! ':' then (trimStart v).all Attr.isName else !(trimStart v).any isWs && !(trimStart v).any (· == c! '`')) && decide (3 ≤ 1 + Lex.countWhile (· == f) chars)) = g1 at g ⊢
    cases g1 with
    | true =>
      simp only [if_true] at g ⊢
      cases g
      exact ⟨_, rfl, by simp [shiftRead, deeper]; omega⟩
    | false =>
      simp only [Bool.false_eq_true, if_false] at g ⊢
      cases g
      exact ⟨_, rfl, rfl⟩
  rename_i h10; rw [if_neg h10]
  obtain ⟨v, hv, g⟩ := bind_ok h
  cases g
  rw [hv]
  refine ⟨_, rfl, ?_⟩
  cases v with
  | none => rfl
  | some v => simp [shiftRead, deeper]; omega

theorem dropWhile_spaces (k : Nat) (l : Bytes) : (spaces k ++ l).dropWhile Block.isInnerWs = l.dropWhile Block.isInnerWs := by
  refine Block.dropWhile_append_all ?_
  intro x hx
  simp [spaces] at hx
  rw [hx.2]; decide

/-- Indentation does not change what a line is. -/
theorem identify_pad {k : Nat} {l : Bytes} {r : Block.Kind × Span} (h : Block.identify (spaces k ++ l) = .ok r) :
    ∃ r', Block.identify l = .ok r' ∧ r = shiftRead k r' := by
  rw [Block.identify_eq, dropWhile_spaces] at h
  rw [Block.identify_eq]
  have hlen : (l.dropWhile Block.isInnerWs).length ≤ l.length := by
    exact (List.dropWhile_sublist _).length_le
  generalize l.dropWhile Block.isInnerWs = d at *
  have hsl : (spaces k).length = k := by simp [spaces]
  cases d with
  | nil =>
    cases h
    exact ⟨_, rfl, by simp [shiftRead, deeper, hsl]; omega⟩
  | cons f cs =>
    simp only [List.length_append, hsl] at h
    obtain ⟨o, h1, g⟩ := bind_ok h
    cases g
    have e : k + l.length - (f :: cs).length = (l.length - (f :: cs).length) + k := by omega
    rw [e] at h1
    obtain ⟨o', h2, rfl⟩ := identMatch_shift h1
    refine ⟨_, by simp only [h2, Bind.bind, Except.bind, pure, Except.pure]; rfl, ?_⟩
    rw [e]
    cases o' with
    | none => rfl
    | some r => rfl

theorem padded_eq (k : Nat) (l : Bytes) : padded k l = l ∨ padded k l = spaces k ++ l := by
  unfold padded
  split
  · exact .inl rfl
  · exact .inr rfl

theorem NotFence.pad {l : Bytes} (h : NotFence l) (k : Nat) : NotFence (padded k l) := by
  rcases padded_eq k l with e | e
  · rw [e]; exact h
  · rw [e]
    intro r hr i n f sp cl nr hk
    obtain ⟨r', h1, rfl⟩ := identify_pad hr
    rw [shiftRead_fst] at hk
    have := h r' h1
    cases hr' : r'.1 with
    | fenced => exact absurd hr' (this _ _ _ _ _ _)
    | _ => rw [hr'] at hk; simp [deeper] at hk

/-! ## The first line of an item -/

theorem para_first {is : List Inl} (h : ParaOk is) {l : Bytes} {L : List Bytes} (hl : splitNl (prints is ++ [c! '\n']) = l :: L) :
    ∃ c cs, l = c :: cs ∧ isWs c = false ∧ FirstOk (c :: cs) := by
  obtain ⟨c, cs, rfl, h1, h2, -⟩ := para_start h hl
  exact ⟨c, cs, rfl, h1, h2⟩

theorem not_break {c : UInt8} {cs : Bytes} (hw : isWs c = false) (h1 : c ≠ c! '-') (h2 : c ≠ c! '*') (n : Nat) : Block.thematicLoop n (c :: cs) = false := by
  simp [Block.thematicLoop, h1, h2, hw]

theorem bullet_cases (b : Bullet) : (bulletChar b = c! '-' ∨ bulletChar b = c! '*') ∨ bulletChar b = c! '+' := by cases b <;> decide

/-- A line with a bullet. -/
theorem bulletLine (b : Bullet) (cs : Bytes) (hb : Block.isThematicBreak cs = false) :
    Block.identify (bulletChar b :: cs) = .ok ((Block.identBullet 0 (bulletChar b) cs).getD (.paragraph, ⟨0, 0⟩)) := by
  have hw : isWs (bulletChar b) = false := by cases b <;> decide
  rw [identify_cons (.inl hw)]
  unfold Block.identMatch
  rw [if_neg (by cases b <;> decide), if_neg (by cases b <;> decide), if_neg (by cases b <;> decide), if_neg (by cases b <;> decide), if_neg (by cases b <;> decide),
    if_neg (by cases b <;> decide), if_neg (by rw [hb]; simp), if_pos (by cases b <;> decide)]
  rfl

theorem label_ident {lb : Label} (h : lb.Ok) {c : UInt8} {cs : Bytes} (hb : FirstOk (c :: cs))
    (hs : Safe (lb.text ++ c! ' ' :: c :: cs)) {r : Block.Kind × Span} (hr : Block.identify (lb.text ++ c! ' ' :: c :: cs) = .ok r) :
    r = (.listItem 0 lb.ty false, ⟨0, lb.text.length⟩) := by
  cases lb with
  | desc =>
    simp only [Label.text, List.cons_append, List.nil_append] at hr
    rw [identify_cons (.inl (by decide))] at hr
    unfold Block.identMatch at hr
    rw [if_neg (by decide), if_neg (by decide), if_neg (by decide), if_neg (by decide), if_neg (by decide), if_neg (by decide),
      if_neg (by intro h; revert h; rw [and_iff_left_of_imp (fun h => absurd h (by decide))]; decide), if_neg (by decide), if_pos ⟨rfl, rfl⟩] at hr
    cases hr
    rfl
  | bullet b =>
    simp only [Label.text, List.cons_append, List.nil_append] at hr
    rw [bulletLine b _ (by
      unfold Block.isThematicBreak Block.thematicLoop
      rw [if_neg (by decide), if_pos (by decide)]
      exact hb.brk 1)] at hr
    simp [Block.identBullet] at hr
    rw [← hr]
    have ht : Block.isTask (c :: cs) = false := hb.task
    simp [ht, Label.ty, Label.text]
  | task b checked =>
    have e : (Label.task b checked).text ++ c! ' ' :: c :: cs = bulletChar b :: c! ' ' :: c! '[' :: (if checked then c! 'x' else c! ' ') :: c! ']' :: c! ' ' :: c :: cs := by
      cases checked <;> rfl
    rw [e, bulletLine b _ (by
      unfold Block.isThematicBreak Block.thematicLoop
      rw [if_neg (by decide), if_pos (by decide)]
      exact not_break (by decide) (by decide) (by decide) 1)] at hr
    simp [Block.identBullet] at hr
    rw [← hr]
    have ht : Block.isTask (c! '[' :: (if checked then c! 'x' else c! ' ') :: c! ']' :: c! ' ' :: c :: cs) = true := by
      unfold Block.isTask
      cases checked <;> simp [Block.noneOrWs] <;> decide
    rw [if_pos ht]
    cases checked <;> simp [Label.ty, Label.text]
  | ordered k s n =>
    simp only [Label.Ok] at h
    obtain ⟨hn, hd, hok, hv⟩ := h
    simp only [Label.text] at hr hs ⊢
    cases hl : Numbers.marker s n ++ c! ' ' :: c :: cs with
    | nil => simp at hl
    | cons first chars =>
      rw [hl] at hr hs
      have hh := Block.ordered_head k s hn hd hl.symm
      have key : ∀ c : UInt8, c ≠ c! '(' → isAlnum c = false → first ≠ c := by
        rintro c h1 h2 rfl
        rcases hh with e | e
        · exact h1 e
        · rw [h2] at e; cases e
      have hw1 : isWs first = false := by
        rcases hh with e | e
        · rw [e]; decide
        · cases hx : isWs first with
          | false => rfl
          | true =>
            simp only [isWs, Bool.or_eq_true, beq_iff_eq] at hx
            rcases hx with (((h | h) | h) | h) | h <;> exact absurd h (key _ (by decide) (by decide))
      rw [identify_cons (.inl hw1)] at hr
      obtain ⟨o, ho, g⟩ := bind_ok hr
      cases g
      unfold Block.identMatch at ho
      rw [if_neg (key _ (by decide) (by decide)), if_neg (key _ (by decide) (by decide)), if_neg (key _ (by decide) (by decide)),
        if_neg (key _ (by decide) (by decide)), if_neg (key _ (by decide) (by decide)), if_neg (key _ (by decide) (by decide)),
        if_neg (by
          intro ⟨h, _⟩
          rcases h with h | h <;> exact key _ (by decide) (by decide) h),
        if_neg (by
          intro h
          rcases h with h | h | h <;> exact key _ (by decide) (by decide) h),
        if_neg (by intro ⟨h, _⟩; exact key _ (by decide) (by decide) h),
        if_neg (by
          intro h
          rcases h with h | h | h <;> exact key _ (by decide) (by decide) h)] at ho
      obtain ⟨y, hy, g⟩ := bind_ok ho
      cases g
      have hmo := (Numbers.maybeOrderedListItem_ok (first :: chars) (by simp) hs).of_ok hy
      have hsome : y ≠ none := by
        rw [← hl] at hy
        exact Block.ordered_full hn hd hok (by intro d hd; cases hd; decide) hy
      cases y with
      | none => exact absurd rfl hsome
      | some y =>
        obtain ⟨num, style, len⟩ := y
        obtain ⟨n', rest, e1, e2, e3, e4, e5, e6, e7, e8, d, t, e9, e10⟩ := hmo num style len rfl
        have hok' : Syntax.NumeralOk num.numbering n' := Block.numeralOk e8 e9 e10
        rw [← hl] at e1
        obtain ⟨q1, q2, q3⟩ := Block.ordered_unique hn e3 hd e4 hok hok' e1
        subst q2 q3
        obtain ⟨nn, nv⟩ := num
        simp only at q1 e5
        subst q1
        simp only [Option.map_some, Option.getD_some, Label.ty, ← e5, Int.toNat_natCast]
        rw [e2]
        simp

end Jotdown.Round
