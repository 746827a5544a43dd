import Verif.Proofs.Prep
/-! # Helper lemmas: blocks begin with their markers -/
namespace Jotdown.Block
open Jotdown Jotdown.Syntax

/-- Kinds whose lines are parsed recursively (or that are fences or definitions). -/
def Kind.shrinks : Kind → Bool
  | .blockquote | .listItem .. | .definition .. | .fenced .. => true
  | _ => false

/-- The range has the whole rest of a line. -/
def Full (src : Bytes) (l : Span) : Prop := sliceOf src l = firstLine (src.drop l.start)

def Fulls (src : Bytes) (ls : List Span) : Prop := ∀ l ∈ ls, Full src l

theorem firstLine_nl {a b : Bytes} (h : firstLine (a ++ c! '\n' :: b) = a ++ c! '\n' :: b) : b = [] := by
  induction a with
  | nil =>
    simp [firstLine] at h
    exact h
  | cons c a ih =>
    rw [List.cons_append, firstLine] at h
    split at h
    · simp at h
    · simp only [List.cons.injEq, true_and] at h
      exact ih h

/-- The marker of a block that contains others has no newline. -/
theorem no_newline {l : Bytes} {n : Nat} (h : firstLine l = l) (hl : ∀ c, (l.take n).getLast? = some c → c ≠ c! '\n') :
    c! '\n' ∉ l.take n := by
  intro hm
  obtain ⟨a, b, hab⟩ := List.append_of_mem hm
  have : l = a ++ c! '\n' :: (b ++ l.drop n) := by
    conv => lhs; rw [← List.take_append_drop n l, hab]
    simp
  rw [this] at h
  have hb := firstLine_nl h
  simp only [List.append_eq_nil_iff] at hb
  rw [hab, hb.1] at hl
  exact hl (c! '\n') (by simp) rfl

theorem Full.advance {src : Bytes} {l : Span} {n : Nat} (h : Full src l) (hn : c! '\n' ∉ (sliceOf src l).take n)
    (hlen : n ≤ (sliceOf src l).length) :
    Full src ⟨l.start + n, l.stop⟩ := by
  unfold Full at h ⊢
  have h1 : sliceOf src ⟨l.start + n, l.stop⟩ = (sliceOf src l).drop n := by
    unfold sliceOf
    simp only
    rw [List.drop_take, List.drop_drop]
    congr 1; omega
  rw [h1]
  have h2 : (src.drop l.start).take n = (sliceOf src l).take n := by
    unfold sliceOf at hlen ⊢
    rw [List.take_take]
    congr 1
    simp only [List.length_take, List.length_drop] at hlen
    omega
  rw [← List.drop_drop, firstLine_drop (by rw [h2]; exact hn), h]

theorem sliceOf_advance' {src : Bytes} {sp : Span} {n : Nat} :
    sliceOf src ⟨sp.start + n, sp.stop⟩ = (sliceOf src sp).drop n := by
  unfold sliceOf
  simp only
  rw [List.drop_take, List.drop_drop]
  congr 1; omega

theorem firstLine_head (s : Bytes) : (firstLine s).head? = s.head? := by
  cases s with
  | nil => rfl
  | cons c s => rw [firstLine]; split <;> rfl

theorem Full.one {src : Bytes} {l : Span} (h : Full src l) : firstLine (sliceOf src l) = sliceOf src l := by
  rw [h, firstLine_idem]

/-- The kind of a block is what is written there. -/
def KindAt (src : Bytes) (k : Kind) (sp : Span) : Prop :=
  (k = .paragraph ∧ sp.start = sp.stop ∧ StartOk src sp .paragraph) ∨
  ∃ a o, sp.start ≤ a ∧ Begins src a sp.stop o ∧ Opens k o ∧ ((∀ i f l b, k ≠ .definition i f l b) → a = sp.start)

theorem opens_core {k k' : Kind} {o : Opening} (h : k'.core = k.core) (ho : Opens k o) : Opens k' o := by
  cases ho <;> cases k' <;> simp [Kind.core] at h
  all_goals first
    | (subst h; constructor)
    | (obtain ⟨h1, h2⟩ := h; subst h1; subst h2; constructor)
    | (obtain ⟨h1, h2, h3⟩ := h; subst h1; subst h2; subst h3; constructor)
    | (obtain ⟨h1, h2, h3, h4⟩ := h; subst h1; subst h2; subst h3; subst h4; constructor)
    | constructor

/-- Blocks that contain others: the last byte of the marker. -/
theorem marker_last {l : Bytes} {o : Opening} {n : Nat} (h : Marker l o n) {k : Kind} (ho : Opens k o) (hk : k.shrinks = true)
    (hf : ∀ i fl fk spec c n, k ≠ .fenced i fl fk spec c n) :
    n ≤ l.length ∧ ∀ c, (l.take n).getLast? = some c → c ≠ c! '\n' := by
  cases h <;> cases ho <;> simp [Kind.shrinks] at hk
  case blockquote r hr => exact ⟨by simp, by simp⟩
  case linkDefinition.link label r h1 h2 i lb =>
    have : (c! '[' :: label ++ b! "]:" ++ r).take (label.length + 3) = c! '[' :: label ++ b! "]" ++ [c! ':'] := by
      rw [List.take_left' (by simp)]; simp
    rw [this]
    exact ⟨by simp, fun c hc => by rw [List.getLast?_concat] at hc; cases hc; decide⟩
  case footnote.footnote label r h1 i lb =>
    have : (b! "[^" ++ label ++ b! "]:" ++ r).take (label.length + 4) = b! "[^" ++ label ++ b! "]" ++ [c! ':'] := by
      rw [List.take_left' (by simp)]; simp
    rw [this]
    exact ⟨by simp, fun c hc => by rw [List.getLast?_concat] at hc; cases hc; decide⟩
  case unordered.unordered b r hb _ _ _ i lb =>
    refine ⟨by simp, ?_⟩
    intro c hc
    simp at hc
    subst hc
    simp at hb
    rcases hb with rfl | rfl | rfl <;> decide
  case task.task b x s hb hx hs i lb => exact ⟨by simp, by simp⟩
  case description.description r hr i lb => exact ⟨by simp, by simp⟩
  case div => exact absurd rfl (hf _ _ _ _ _ _)
  case code => exact absurd rfl (hf _ _ _ _ _ _)
  case ordered.ordered m n r h1 h2 h3 h4 h5 i lb hv => 
    rw [List.take_left' rfl]
    refine ⟨by simp, ?_⟩
    intro c hc
    cases m <;> simp only [Numbers.marker] at hc <;> rw [List.getLast?_concat] at hc <;> cases hc <;> decide

theorem kindAt_of {src : Bytes} (hs : Safe src) {first : Span} (hf : SpanOk src first) (hfull : Full src first) {k k' : Kind}
    {span : Span} (hi : identify (sliceOf src first) = .ok (k, span)) (hc : k'.core = k.core) :
    KindAt src k' ⟨span.start + first.start, span.stop + first.start⟩ ∧
    (k'.shrinks = true → (∀ i fl fk spec c n, k' ≠ .fenced i fl fk spec c n) →
      c! '\n' ∉ (sliceOf src first).take span.stop ∧ span.stop ≤ (sliceOf src first).length) := by
  have hbs := sliceOf_bd_safe hf hs
  have hsl := sliceOf_length hf
  have hind : indentOf (sliceOf src first) ≤ (sliceOf src first).length :=
    ((identify_ok hbs.1 hbs.2).of_ok hi).2
  have hnl : c! '\n' ∉ (sliceOf src first).take (indentOf (sliceOf src first)) := fun hm => (indent_take _ _ hm).2 rfl
  have hline : (sliceOf src first).drop (indentOf (sliceOf src first)) =
      firstLine (src.drop (first.start + indentOf (sliceOf src first))) := by
    have := hfull.advance hnl hind
    unfold Full at this
    rw [sliceOf_advance'] at this
    exact this
  rcases identify_read hbs.1 hbs.2 hfull.one hi with ⟨hk, hsp, ⟨c, hc1, hc2⟩, hp⟩ | hr
  · subst hk
    have hk' : k' = .paragraph := by cases k' <;> simp_all [Kind.core]
    subst hk'
    subst hsp
    refine ⟨Or.inl ⟨rfl, rfl, c, ?_, hc2, ?_⟩, by simp [Kind.shrinks]⟩
    · simp only
      rw [Nat.add_comm]
      have h1 := hc1
      rw [hfull, List.head?_drop] at h1
      rw [hline, firstLine_head] at hc1
      rw [← hc1, List.head?_drop]
    · simp only
      rw [Nat.add_comm, ← hline]; exact hp
  · obtain ⟨o, n, hm, ho, h1, h2, h3⟩ := hr k span rfl
    have ho' := opens_core hc ho
    refine ⟨Or.inr ⟨first.start + indentOf (sliceOf src first), o, by simp only; omega, ⟨n, by simp only; omega, hline ▸ hm⟩, ho', ?_⟩, ?_⟩
    · intro hd
      have := h3 (by
        intro i f l b hk
        subst hk
        cases k' <;> simp [Kind.core] at hc
        exact hd _ _ _ _ rfl)
      simp only; omega
    · intro hk hnf
      obtain ⟨g1, g2⟩ := marker_last hm ho' hk hnf
      have hone : firstLine ((sliceOf src first).drop (indentOf (sliceOf src first))) = (sliceOf src first).drop (indentOf (sliceOf src first)) := by
        rw [hline, firstLine_idem]
      have g3 := no_newline hone g2
      simp only [List.length_drop] at g1
      rw [h1, List.take_add]
      refine ⟨?_, by omega⟩
      rw [List.mem_append]
      rintro (h | h)
      · exact hnl h
      · exact g3 h

end Jotdown.Block
