import Verif.Proofs.Lex
/-! # Lexers that have the same text ahead -/
namespace Jotdown.Lex
open Jotdown

/-- Two lexers that yield the same tokens. -/
structure LexEq (l m : Lexer) : Prop where
  rest : l.src.drop l.pos = m.src.drop m.pos
  tail : l.src.drop (l.pos - l.nextLen) = m.src.drop (m.pos - m.nextLen)
  next : l.next = m.next
  escape : l.escape = m.escape
  verb : l.verbatim = m.verbatim

theorem LexEq.refl (l : Lexer) : LexEq l l := ⟨rfl, rfl, rfl, rfl, rfl⟩

theorem LexEq.verbatim {l m : Lexer} (h : LexEq l m) (b : Bool) : LexEq { l with verbatim := b } { m with verbatim := b } :=
  ⟨h.rest, h.tail, h.next, h.escape, rfl⟩

theorem LexEq.of {l m : Lexer} (hr : l.src.drop l.pos = m.src.drop m.pos) (hn : l.next = none) (hm : m.next = none)
    (he : l.escape = m.escape) (hv : l.verbatim = m.verbatim) : LexEq l m := by
  refine ⟨hr, ?_, by rw [hn, hm], he, hv⟩
  simp only [Lexer.nextLen, hn, hm, Nat.sub_zero]
  exact hr

theorem token_eq {l m : Lexer} (hr : l.src.drop l.pos = m.src.drop m.pos) (he : l.escape = m.escape) (hv : l.verbatim = m.verbatim) :
    l.token.1 = m.token.1 ∧ l.token.2.src.drop l.token.2.pos = m.token.2.src.drop m.token.2.pos ∧
    l.token.2.escape = m.token.2.escape ∧ l.token.2.verbatim = m.token.2.verbatim ∧ l.token.2.next = l.next ∧ m.token.2.next = m.next ∧
    (∀ t, l.token.1 = some t → l.token.2.pos = l.pos + t.len ∧ m.token.2.pos = m.pos + t.len) ∧
    (l.token.1 = none → l.token.2.pos = l.pos ∧ m.token.2.pos = m.pos) ∧ l.token.2.src = l.src ∧ m.token.2.src = m.src := by
  have h : tokenAt l.escape l.verbatim l.rest = tokenAt m.escape m.verbatim m.rest := by
    unfold Lexer.rest; rw [hr, he, hv]
  unfold Lexer.token
  rw [h]
  split
  · exact ⟨rfl, hr, rfl, hv, rfl, rfl, by simp, by simp, rfl, rfl⟩
  · refine ⟨rfl, ?_, rfl, hv, rfl, rfl, by simp, by simp, rfl, rfl⟩
    simp only [← List.drop_drop, hr]

theorem concatText_eq (l : Lexer) (len : Nat) : ∀ (m : Lexer), l.next = none → m.next = none → l.src.drop l.pos = m.src.drop m.pos →
    l.escape = m.escape → l.verbatim = m.verbatim →
    (l.concatText len).1 = (m.concatText len).1 ∧ LexEq (l.concatText len).2 (m.concatText len).2 := by
  fun_induction Lexer.concatText l len with
  | case1 l len n l' h ih =>
    intro m hn hm hr he hv
    obtain ⟨a1, a2, a3, a4, a5, a6, a7, -, a8, a9⟩ := token_eq hr he hv
    rw [h] at a1 a2 a3 a4 a5
    have hmt : m.token = (some ⟨.text, n⟩, m.token.2) := by rw [← Prod.eta m.token, ← a1]
    have := ih m.token.2 (by rw [← hn]; exact a5) (by rw [a6, hm]) a2 a3 a4
    conv => rhs; rhs; unfold Lexer.concatText
    conv => lhs; rhs; unfold Lexer.concatText
    rw [hmt]
    exact this
  | case2 l len t l' hne h =>
    intro m hn hm hr he hv
    obtain ⟨a1, a2, a3, a4, a5, a6, a7, a8, a9, a10⟩ := token_eq hr he hv
    rw [h] at a1 a2 a3 a4 a5 a7 a8 a9
    have hmt : m.token = (t, m.token.2) := by rw [← Prod.eta m.token, ← a1]
    have hme : m.concatText len = (len, { m.token.2 with next := t }) := by
      unfold Lexer.concatText
      split
      · rename_i n l2 h2
        rw [hmt] at h2
        simp only [Prod.mk.injEq] at h2
        exact absurd h2.1 (hne n)
      · rename_i t2 l2 h2 h3
        rw [hmt] at h3
        simp only [Prod.mk.injEq] at h3
        rw [h3.1, h3.2]
    rw [hme]
    refine ⟨rfl, a2, ?_, rfl, a3, a4⟩
    simp only [Lexer.nextLen]
    cases t with
    | none => exact a2
    | some t =>
      obtain ⟨b1, b2⟩ := a7 t rfl
      simp only at b1 a9 ⊢
      rw [b1, b2, Nat.add_sub_cancel, Nat.add_sub_cancel, a9, a10]
      exact hr

theorem LexEq.nextTok {l m : Lexer} (h : LexEq l m) : l.nextTok.1 = m.nextTok.1 ∧ LexEq l.nextTok.2 m.nextTok.2 := by
  unfold Lexer.nextTok
  cases hn : l.next with
  | some t =>
    have hm : m.next = some t := by rw [← h.next, hn]
    simp only [hm]
    exact ⟨trivial, .of h.rest rfl rfl h.escape h.verb⟩
  | none =>
    have hm : m.next = none := by rw [← h.next, hn]
    simp only [hm]
    obtain ⟨a1, a2, a3, a4, a5, a6, a7, a8, a9, a10⟩ := token_eq h.rest h.escape h.verb
    have hl2 : l.token = (l.token.1, l.token.2) := rfl
    have hm2 : m.token = (l.token.1, m.token.2) := by rw [a1]
    unfold Lexer.nextToken
    rw [hm2]
    cases ht : l.token.1 with
    | none =>
      rw [hl2, ht]
      exact ⟨rfl, .of a2 (by rw [a5, hn]) (by rw [a6, hm]) a3 a4⟩
    | some t =>
      rw [hl2, ht]
      obtain ⟨k, n⟩ := t
      by_cases hk : k = .text
      · subst hk
        have := concatText_eq l.token.2 n m.token.2 (by rw [a5, hn]) (by rw [a6, hm]) a2 a3 a4
        simp only
        exact ⟨by rw [this.1], this.2⟩
      · cases k <;> first | exact absurd rfl hk | exact ⟨rfl, .of a2 (by rw [a5, hn]) (by rw [a6, hm]) a3 a4⟩

theorem LexEq.peek {l m : Lexer} (h : LexEq l m) : l.peek.1 = m.peek.1 ∧ LexEq l.peek.2 m.peek.2 := by
  unfold Lexer.peek
  cases hn : l.next with
  | some t =>
    have hm : m.next = some t := by rw [← h.next, hn]
    simp only [hm]
    exact ⟨trivial, h⟩
  | none =>
    have hm : m.next = none := by rw [← h.next, hn]
    simp only [hm]
    obtain ⟨a1, a2, a3, a4, a5, a6, a7, a8, a9, a10⟩ := token_eq h.rest h.escape h.verb
    refine ⟨a1, a2, ?_, a1, a3, a4⟩
    simp only [Lexer.nextLen]
    cases ht : l.token.1 with
    | none =>
      rw [← a1, ht]
      exact a2
    | some t =>
      rw [← a1, ht]
      obtain ⟨b1, b2⟩ := a7 t ht
      simp only
      rw [b1, b2, Nat.add_sub_cancel, Nat.add_sub_cancel, a9, a10]
      exact h.rest

theorem byteSlice_all {s : Bytes} {a : Nat} {r : Bytes} (h : byteSlice s a s.length = .ok r) : r = s.drop a := by
  unfold byteSlice at h
  split at h
  · simp only [Except.ok.injEq] at h
    rw [← h]
    exact List.take_of_length_le (by simp)
  · cases h

theorem LexEq.ahead {l m : Lexer} (h : LexEq l m) {a b : Bytes} (ha : l.ahead = .ok a) (hb : m.ahead = .ok b) : a = b := by
  have key : ∀ {l : Lexer} {a : Bytes}, l.ahead = .ok a → a = l.src.drop (l.pos - l.nextLen) := by
    intro l a h
    unfold Lexer.ahead at h
    obtain ⟨p, h1, h⟩ := bind_ok h
    unfold csub at h1
    split at h1
    · cases h1
      exact byteSlice_all h
    · cases h1
  rw [key ha, key hb, h.tail]

theorem LexEq.skipAhead {l m : Lexer} (h : LexEq l m) {n : Nat} {a b : Lexer} (ha : l.skipAhead n = .ok a) (hb : m.skipAhead n = .ok b) : a = b := by
  unfold Lexer.skipAhead at ha hb
  obtain ⟨s, h1, ha⟩ := bind_ok ha
  obtain ⟨t, h2, hb⟩ := bind_ok hb
  rw [byteSlice_all h1, ← List.drop_drop, h.rest] at ha
  rw [byteSlice_all h2, ← List.drop_drop] at hb
  rw [ha] at hb
  cases hb
  rfl

end Jotdown.Lex
