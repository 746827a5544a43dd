import Verif.Spec.RoundInline
import Verif.Proofs.LexVerb
/-! # Round trip: the lexer -/
namespace Jotdown.Lex
open Jotdown

/-- The lexer has the input `s` left, whose first token is lexed with the escape flag `e` in mode `v`. -/
def At (l : Lexer) (e v : Bool) (s : Bytes) : Prop :=
  l.verbatim = v ∧ ((l.next = none ∧ l.escape = e ∧ l.rest = s) ∨
    ∃ t e', l.next = some t ∧ tokenAt e v s = (some t, e') ∧ l.escape = e' ∧ l.rest = s.drop t.len)

theorem At.new (s : Bytes) : At (Lexer.new s) false false s := ⟨rfl, .inl ⟨rfl, rfl, rfl⟩⟩

/-- The first `m` bytes are text tokens. -/
inductive Texts (v : Bool) : Bytes → Nat → Prop
  | nil {s} : Texts v s 0
  | cons {s k e m} : tokenAt false v s = (some ⟨.text, k⟩, e) → Texts v (s.drop k) m → Texts v s (k + m)

theorem token_some {l : Lexer} {t : Token} {e' : Bool} (h : tokenAt l.escape l.verbatim l.rest = (some t, e')) :
    l.token = (some t, { l with pos := l.pos + t.len, escape := e' }) := by
  unfold Lexer.token; rw [h]

theorem token_none {l : Lexer} {e' : Bool} (h : tokenAt l.escape l.verbatim l.rest = (none, e')) :
    l.token = (none, { l with escape := e' }) := by
  unfold Lexer.token; rw [h]

theorem tokenAt_nil (e v : Bool) : tokenAt e v [] = (none, false) := by cases e <;> rfl

theorem tokenAt_cons (e v : Bool) (c : UInt8) (s : Bytes) : ∃ t e', tokenAt e v (c :: s) = (some t, e') := by
  unfold tokenAt
  split
  · exact ⟨_, _, rfl⟩
  · split
    · exact ⟨_, _, rfl⟩
    · exact ⟨_, _, rfl⟩

theorem rest_move (l : Lexer) (k : Nat) (e : Bool) : ({ l with pos := l.pos + k, escape := e } : Lexer).rest = l.rest.drop k := by
  simp [Lexer.rest, List.drop_drop]

theorem concat_at (v : Bool) : ∀ (n : Nat) (l : Lexer) (len : Nat), l.rest.length ≤ n → l.next = none → l.escape = false → l.verbatim = v →
    ∃ m l', l.concatText len = (len + m, l') ∧ Texts v l.rest m ∧ At l' false v (l.rest.drop m) := by
  intro n
  induction n with
  | zero =>
    intro l len hn h1 h2 h3
    have hr : l.rest = [] := List.length_eq_zero_iff.mp (by omega)
    have ht : l.token = (none, { l with escape := false }) := token_none (by rw [hr, tokenAt_nil])
    refine ⟨0, { l with escape := false, next := none }, ?_, .nil, ?_⟩
    · conv => lhs; unfold Lexer.concatText
      split
      · rename_i h; rw [ht] at h; cases h
      · rename_i h; rw [ht] at h; cases h; rfl
    · exact ⟨h3, .inl ⟨rfl, rfl, by simp [Lexer.rest]⟩⟩
  | succ n ih =>
    intro l len hn h1 h2 h3
    rcases hc : tokenAt l.escape l.verbatim l.rest with ⟨_ | t, e'⟩
    · have ht := token_none hc
      have he : e' = false ∧ l.rest = [] := by
        cases hr : l.rest with
        | nil => rw [hr, tokenAt_nil] at hc; cases hc; exact ⟨rfl, rfl⟩
        | cons c s => rw [hr] at hc; obtain ⟨t, e, hx⟩ := tokenAt_cons l.escape l.verbatim c s; rw [hx] at hc; cases hc
      refine ⟨0, { l with escape := e', next := none }, ?_, .nil, ?_⟩
      · conv => lhs; unfold Lexer.concatText
        split
        · rename_i h; rw [ht] at h; cases h
        · rename_i h; rw [ht] at h; cases h; rfl
      · exact ⟨h3, .inl ⟨rfl, he.1, rfl⟩⟩
    · have ht := token_some hc
      have hl := tokenAt_len _ _ _ _ _ hc
      by_cases hk : t.kind = .text
      · obtain ⟨k, w⟩ := t
        simp only at hk
        subst hk
        have hesc : e' = false := tokenAt_esc hc (by simp)
        subst hesc
        simp only at hl
        obtain ⟨m, l', h4, h5, h6⟩ := ih { l with pos := l.pos + w, escape := false } (len + w)
          (by rw [rest_move, List.length_drop]; omega) h1 rfl h3
        rw [rest_move] at h5 h6
        refine ⟨w + m, l', ?_, .cons (e := false) (by rw [← hc, h2, h3]) h5, ?_⟩
        · conv => lhs; unfold Lexer.concatText
          split
          · rename_i n' l'' h; rw [ht] at h; cases h; rw [h4, Nat.add_assoc]
          · rename_i h1' h; rw [ht] at h; cases h; exact absurd rfl (h1' _)
        · rw [List.drop_drop] at h6; exact h6
      · refine ⟨0, { l with pos := l.pos + t.len, escape := e', next := some t }, ?_, .nil, ?_⟩
        · conv => lhs; unfold Lexer.concatText
          split
          · rename_i n' l'' h; rw [ht] at h; cases h; exact absurd rfl hk
          · rename_i h1' h; rw [ht] at h; cases h; rfl
        · refine ⟨h3, .inr ⟨t, e', rfl, ?_, rfl, ?_⟩⟩
          · rw [List.drop_zero, ← h2, ← h3]; exact hc
          · simp [Lexer.rest, List.drop_drop]

theorem At.next_none {l : Lexer} {e v : Bool} (h : At l e v []) : ∃ l', l.nextTok = (none, l') ∧ At l' false v [] := by
  obtain ⟨h0, ⟨h1, h2, h3⟩ | ⟨t, e', h1, h2, h3, h4⟩⟩ := h
  · refine ⟨{ l with escape := false }, ?_, h0, .inl ⟨h1, rfl, h3⟩⟩
    have ht : l.token = (none, { l with escape := false }) := token_none (by rw [h3, tokenAt_nil])
    unfold Lexer.nextTok Lexer.nextToken
    rw [h1, ht]
    simp [h1]
  · rw [tokenAt_nil] at h2; cases h2

theorem At.next_tok {l : Lexer} {e v : Bool} {s : Bytes} {t : Token} {e' : Bool} (h : At l e v s) (ht : tokenAt e v s = (some t, e')) (hk : t.kind ≠ .text) :
    ∃ l', l.nextTok = (some t, l') ∧ At l' e' v (s.drop t.len) ∧ l'.next = none := by
  obtain ⟨h0, ⟨h1, h2, h3⟩ | ⟨t1, e1, h1, h2, h3, h4⟩⟩ := h
  · refine ⟨{ l with pos := l.pos + t.len, escape := e' }, ?_, ⟨h0, .inl ⟨h1, rfl, by rw [rest_move, h3]⟩⟩, h1⟩
    have h5 := token_some (l := l) (by rw [h2, h0, h3]; exact ht)
    unfold Lexer.nextTok Lexer.nextToken
    rw [h1]
    simp only
    split
    · rename_i h; rw [h5] at h; cases h; exact absurd rfl hk
    · rename_i h; rw [h5] at h; cases h; simp [h1]
  · rw [ht] at h2
    cases h2
    refine ⟨{ l with next := none }, ?_, ⟨h0, .inl ⟨rfl, h3, h4⟩⟩, rfl⟩
    unfold Lexer.nextTok
    rw [h1]

theorem At.next_text {l : Lexer} {e v : Bool} {s : Bytes} {k : Nat} {e' : Bool} (h : At l e v s) (ht : tokenAt e v s = (some ⟨.text, k⟩, e')) :
    ∃ m l', l.nextTok = (some ⟨.text, k + m⟩, l') ∧ Texts v (s.drop k) m ∧ At l' false v (s.drop (k + m)) := by
  have he : e' = false := tokenAt_esc ht (by simp)
  subst he
  obtain ⟨h0, ⟨h1, h2, h3⟩ | ⟨t1, e1, h1, h2, h3, h4⟩⟩ := h
  · have h5 := token_some (l := l) (by rw [h2, h0, h3]; exact ht)
    obtain ⟨m, l', h6, h7, h8⟩ := concat_at v _ { l with pos := l.pos + k, escape := false } k (Nat.le_refl _) h1 rfl h0
    rw [rest_move, h3] at h7 h8
    refine ⟨m, l', ?_, h7, by rw [List.drop_drop] at h8; exact h8⟩
    unfold Lexer.nextTok Lexer.nextToken
    rw [h1]
    simp only
    split
    · rename_i h; rw [h5] at h; cases h; rw [h6]
    · rename_i h1' h; rw [h5] at h; cases h; exact absurd rfl (h1' _)
  · rw [ht] at h2
    cases h2
    refine ⟨0, { l with next := none }, ?_, .nil, h0, .inl ⟨rfl, h3, h4⟩⟩
    unfold Lexer.nextTok
    rw [h1]; rfl

theorem At.peek {l : Lexer} {v : Bool} {s : Bytes} (h : At l false v s) : (l.peek).1 = (tokenAt false v s).1 ∧ At l.peek.2 false v s := by
  obtain ⟨h0, ⟨h1, h2, h3⟩ | ⟨t1, e1, h1, h2, h3, h4⟩⟩ := h
  · unfold Lexer.peek
    rw [h1]
    simp only
    rcases hc : tokenAt false v s with ⟨_ | t, e'⟩
    · have h5 := token_none (l := l) (by rw [h2, h0, h3]; exact hc)
      have : e' = false := by
        cases s with
        | nil => rw [tokenAt_nil] at hc; cases hc; rfl
        | cons c s => obtain ⟨t, e, hx⟩ := tokenAt_cons false v c s; rw [hx] at hc; cases hc
      rw [h5]
      exact ⟨rfl, h0, .inl ⟨rfl, this, h3⟩⟩
    · have h5 := token_some (l := l) (by rw [h2, h0, h3]; exact hc)
      rw [h5]
      refine ⟨rfl, h0, .inr ⟨t, e', rfl, hc, rfl, ?_⟩⟩
      simp [Lexer.rest] at h3 ⊢
      rw [← List.drop_drop, h3]
  · unfold Lexer.peek
    rw [h1]
    exact ⟨by rw [h2], h0, .inr ⟨t1, e1, h1, h2, h3, h4⟩⟩

/-- Only backslashes are lexed in another way in verbatim mode. -/
theorem tokenAt_mode {s : Bytes} (h : s.head? ≠ some (c! '\\')) (v : Bool) : tokenAt false v s = tokenAt false false s := by
  unfold tokenAt
  simp only [Bool.false_eq_true, if_false]
  split
  · rfl
  · cases s with
    | nil => rfl
    | cons c r =>
      have hc : c ≠ c! '\\' := by rintro rfl; exact h rfl
      have : specialTok v c r = specialTok false c r := by
        unfold specialTok
        rw [if_neg hc]
        simp only [hc, if_false]
      simp only [this]

theorem At.mode {l : Lexer} {v w : Bool} {s : Bytes} (h : At l false v s) (hs : s.head? ≠ some (c! '\\')) : At { l with verbatim := w } false w s := by
  obtain ⟨h0, h1 | ⟨t1, e1, h1, h2, h3, h4⟩⟩ := h
  · exact ⟨rfl, .inl h1⟩
  · exact ⟨rfl, .inr ⟨t1, e1, h1, by rw [tokenAt_mode hs, ← tokenAt_mode hs v]; exact h2, h3, h4⟩⟩

theorem At.mode_none {l : Lexer} {v w : Bool} {s : Bytes} (h : At l false v s) (hs : l.next = none) : At { l with verbatim := w } false w s := by
  obtain ⟨h0, h1 | ⟨t1, e1, h1, h2, h3, h4⟩⟩ := h
  · exact ⟨rfl, .inl h1⟩
  · rw [hs] at h1; cases h1

end Jotdown.Lex
