import Verif.Proofs.LexText
/-! # Tokens in verbatim text -/
namespace Jotdown.Lex
open Jotdown

/-- A token of verbatim text: a whole run of backticks, or no backtick. -/
def VTok (r : Bytes) (t : Token) : Prop :=
  (t.kind = .seq .backtick → (r.drop t.len).head? ≠ some (c! '`')) ∧ (t.kind ≠ .seq .backtick → c! '`' ∉ r.take t.len)

theorem textOf_notick {s : Bytes} {k : Kind} (h : TextOf s k) (h1 : k ≠ .text) (h2 : k ≠ .seq .backtick) : c! '`' ∉ s := by
  cases k with
  | opn d => simp only [TextOf] at h; subst h; cases d <;> decide
  | cls d => simp only [TextOf] at h; subst h; cases d <;> decide
  | sym d => simp only [TextOf] at h; subst h; cases d <;> decide
  | seq q =>
    simp only [TextOf] at h
    rw [h]
    cases q with
    | backtick => exact absurd rfl h2
    | _ => intro hm; simp [List.mem_replicate, Sequence.ch] at hm
  | newline => simp only [TextOf] at h; subst h; decide
  | escape => simp only [TextOf] at h; subst h; decide
  | nbsp => simp only [TextOf] at h; subst h; decide
  | hardbreak =>
    simp only [TextOf] at h
    obtain ⟨b, hb, rfl⟩ := h
    intro hm
    simp at hm
    rcases hb _ hm with h | h <;> cases h
  | text => exact absurd rfl h1

theorem mem_takeWhile {p : UInt8 → Bool} {r : Bytes} {x : UInt8} (h : x ∈ r.takeWhile p) : p x = true := by
  induction r with
  | nil => simp at h
  | cons y r ih =>
    simp only [List.takeWhile_cons] at h
    split at h
    · rcases List.mem_cons.1 h with rfl | h
      · assumption
      · exact ih h
    · cases h

theorem take_countWhile (p : UInt8 → Bool) (r : Bytes) : r.take (countWhile p r) = r.takeWhile p := by
  unfold countWhile
  induction r with
  | nil => rfl
  | cons x r ih => simp only [List.takeWhile_cons]; split <;> simp [ih]

theorem countWhile_stop (p : UInt8 → Bool) (r : Bytes) : ∀ x, (r.drop (countWhile p r)).head? = some x → p x = false := by
  induction r with
  | nil => intro x h; simp at h
  | cons y r ih =>
    intro x h
    unfold countWhile at *
    simp only [List.takeWhile_cons] at h
    by_cases hy : p y = true
    · rw [if_pos hy] at h
      simp at h
      exact ih x (by simpa using h)
    · rw [if_neg hy] at h
      simp at h
      subst h
      simpa using hy

/-- Text tokens of one special byte. -/
theorem specialTok_vtext (v : Bool) (c : UInt8) (r : Bytes) (h : (specialTok v c r).1.1 = .text) : (specialTok v c r).1.2 = 1 ∧ c ≠ c! '`' := by
  revert h
  unfold specialTok
  repeat' (refine ite_intro (P := fun x : (Kind × Nat) × Bool => x.1.1 = .text → x.1.2 = 1 ∧ c ≠ c! '`') (fun h => ?_) (fun h => ?_))
  all_goals intro hk
  all_goals first
    | (cases hk; done)
    | (subst h; unfold maybeCloseBrace at *; split at hk <;> first | (cases hk; done) | exact ⟨by rw [if_neg (by assumption)], by decide⟩)
    | (subst h; unfold braceTok at hk; split at hk <;> cases hk)
    | (subst h; unfold backslashTok at *; split at hk
       · exact ⟨rfl, by decide⟩
       · split at hk
         · cases hk
         · exact ⟨by rw [if_neg (by assumption)], by decide⟩)
    | exact ⟨rfl, by assumption⟩
    | exact ⟨rfl, by simp_all⟩

theorem specialTok_vseq (v : Bool) (c : UInt8) (r : Bytes) (h : (specialTok v c r).1.1 = .seq .backtick) : (specialTok v c r).1.2 = 1 + countWhile (· == c! '`') r := by
  revert h
  unfold specialTok
  repeat' (refine ite_intro (P := fun x : (Kind × Nat) × Bool => x.1.1 = .seq .backtick → x.1.2 = 1 + countWhile (· == c! '`') r) (fun h => ?_) (fun h => ?_))
  all_goals intro hk
  all_goals first
    | (cases hk; done)
    | rfl
    | (unfold maybeCloseBrace at *; split at hk <;> cases hk)
    | (unfold braceTok at hk; split at hk <;> cases hk)
    | (unfold backslashTok at *; split at hk
       · cases hk
       · split at hk <;> cases hk)

theorem specialTok_vesc (v : Bool) (c : UInt8) (r : Bytes) (h : v = true ∨ (specialTok v c r).1.1 ≠ .escape) : (specialTok v c r).2 = false := by
  revert h
  unfold specialTok
  repeat' (refine ite_intro (P := fun x : (Kind × Nat) × Bool => (v = true ∨ x.1.1 ≠ .escape) → x.2 = false) (fun h => ?_) (fun h => ?_))
  all_goals intro hk
  all_goals first
    | rfl
    | (unfold backslashTok at *; split
       · rfl
       · split
         · rename_i h1
           rcases hk with hk | hk
           · rw [hk]; rfl
           · exfalso; apply hk; simp only []; rw [if_pos h1]
         · rfl)

theorem tokenAt_v {rest : Bytes} {t : Token} {e' : Bool} (h : tokenAt false true rest = (some t, e')) : VTok rest t ∧ e' = false := by
  have ht := (tokenAt_text _ _ _ _ _ h).1
  unfold tokenAt at h
  rw [if_neg (by simp)] at h
  split at h
  · simp only [Prod.mk.injEq, Option.some.injEq] at h; obtain ⟨rfl, h2⟩ := h
    refine ⟨⟨(fun h => by cases h), fun _ hm => ?_⟩, h2.symm⟩
    have h3 : rest.take (countWhile (fun c => !isSpecial c) rest) = rest.takeWhile (fun c => !isSpecial c) := by
      exact take_countWhile _ _
    rw [h3] at hm
    have := mem_takeWhile hm
    exact absurd this (by decide)
  · split at h
    · simp at h
    · rename_i c r _
      simp only [Prod.mk.injEq, Option.some.injEq] at h
      obtain ⟨rfl, h2⟩ := h
      refine ⟨⟨?_, ?_⟩, ?_⟩
      · intro hk
        have := specialTok_vseq true c r hk
        simp only [this]
        intro hh
        rw [Nat.add_comm, List.drop_succ_cons] at hh
        have := countWhile_stop _ _ _ hh
        simp at this
      · intro hk
        by_cases hx : (specialTok true c r).1.1 = .text
        · obtain ⟨h3, h4⟩ := specialTok_vtext true c r hx
          simp only [h3]
          intro hm
          simp at hm
          exact h4 hm.symm
        · exact textOf_notick ht hx hk
      · rw [← h2]; exact specialTok_vesc true c r (.inl rfl)

theorem tokenAt_esc {e v : Bool} {rest : Bytes} {t : Token} {e' : Bool} (h : tokenAt e v rest = (some t, e')) (hk : t.kind ≠ .escape) : e' = false := by
  unfold tokenAt at h
  split at h
  · split at h
    · simp at h
    · simp only [Prod.mk.injEq, Option.some.injEq] at h
      exact h.2.symm
  · split at h
    · simp only [Prod.mk.injEq, Option.some.injEq] at h; exact h.2.symm
    · split at h
      · simp at h
      · simp only [Prod.mk.injEq, Option.some.injEq] at h
        obtain ⟨rfl, h2⟩ := h
        rw [← h2]; exact specialTok_vesc v _ _ (.inr hk)

theorem tokenAt_max {e v : Bool} {rest : Bytes} {t : Token} {e' : Bool} (h : tokenAt e v rest = (some t, e')) (hk : t.kind = .seq .backtick) :
    (rest.drop t.len).head? ≠ some (c! '`') := by
  unfold tokenAt at h
  split at h
  · split at h
    · simp at h
    · simp only [Prod.mk.injEq, Option.some.injEq] at h
      obtain ⟨rfl, -⟩ := h
      simp only at hk
      unfold escapedTok at hk
      split at hk
      · cases hk
      · split at hk
        · cases hk
        · split at hk <;> cases hk
  · split at h
    · simp only [Prod.mk.injEq, Option.some.injEq] at h; obtain ⟨rfl, -⟩ := h; cases hk
    · split at h
      · simp at h
      · rename_i c r _
        simp only [Prod.mk.injEq, Option.some.injEq] at h
        obtain ⟨rfl, h2⟩ := h
        have := specialTok_vseq v c r hk
        simp only [this]
        intro hh
        rw [Nat.add_comm, List.drop_succ_cons] at hh
        have := countWhile_stop _ _ _ hh
        simp at this

/-- After a token: an escape is pending only after a backslash, and runs of backticks are not split. -/
def TokDone (l : Lexer) (t : Token) : Prop :=
  (t.kind ≠ .escape → l.escape = false) ∧ (t.kind = .seq .backtick → (l.src.drop l.pos).head? ≠ some (c! '`'))

theorem token_esc (l : Lexer) (t : Token) (h : l.token.1 = some t) : TokDone l.token.2 t := by
  revert h
  unfold Lexer.token
  split
  · intro h; cases h
  · rename_i t' e heq
    intro h
    simp at h
    subst h
    refine ⟨tokenAt_esc heq, fun hk => ?_⟩
    have := tokenAt_max heq hk
    unfold Lexer.rest at this
    rw [List.drop_drop] at this
    exact this

def EscInv (l : Lexer) : Prop := ∀ t, l.next = some t → TokDone l t

theorem EscInv.new (s : Bytes) : EscInv (Lexer.new s) := by intro t h; simp [Lexer.new] at h

theorem concatText_esc (l : Lexer) (len : Nat) : EscInv (l.concatText len).2 := by
  fun_induction Lexer.concatText l len with
  | case1 l len n l' hl ih => exact ih
  | case2 l len t l' hne hl =>
    intro t' ht
    simp only at ht
    subst ht
    have := token_esc l t' (by rw [hl])
    rw [hl] at this
    exact this

theorem nextTok_esc (l : Lexer) (h : EscInv l) :
    (∀ t, l.nextTok.1 = some t → t.kind ≠ .text → TokDone l.nextTok.2 t) ∧ EscInv l.nextTok.2 := by
  unfold Lexer.nextTok
  split
  · rename_i t ht
    refine ⟨?_, fun t' ht' => by cases ht'⟩
    intro t' ht' _
    simp at ht'; subst ht'
    exact h t ht
  · rename_i hn
    unfold Lexer.nextToken
    have st := token_step l
    split
    · rename_i n l' heq
      refine ⟨?_, concatText_esc l' n⟩
      intro t ht hk; simp at ht; subst ht
      simp at hk
    · rename_i t l' hne heq
      rw [heq] at st
      refine ⟨?_, ?_⟩
      · intro t' ht' _
        have := token_esc l t' (by rw [heq]; exact ht')
        rw [heq] at this
        exact this
      · intro t' ht'
        have := st.next
        simp only at this
        simp only [this, hn] at ht'
        cases ht'

theorem peek_esc (l : Lexer) (h : EscInv l) : EscInv l.peek.2 := by
  unfold Lexer.peek
  split
  · exact h
  · intro t ht
    simp only at ht
    exact token_esc l t ht

end Jotdown.Lex
