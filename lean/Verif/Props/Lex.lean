import Verif.Proofs.Lex
/-! # Properties C24, C25: the inline scanner

A client of the scanner can call `next`, `peek` and switch verbatim mode on or off, in any order. -/
namespace Jotdown.Lex
open Jotdown

/-- A call to the scanner. -/
inductive Op
  | next | peek | verbatim (b : Bool)

/-- One call: the tokens it yields (only `next` yields one) and the scanner afterwards. -/
def call (l : Lexer) : Op → List Token × Lexer
  | .next => (l.nextTok.1.toList, l.nextTok.2)
  | .peek => ([], l.peek.2)
  | .verbatim b => ([], { l with verbatim := b })

/-- A sequence of calls: all tokens yielded, in order, and the scanner afterwards. -/
def calls (l : Lexer) : List Op → List Token × Lexer
  | [] => ([], l)
  | op :: ops => ((call l op).1 ++ (calls (call l op).2 ops).1, (calls (call l op).2 ops).2)

/-- Number of bytes covered by tokens. -/
def covered (ts : List Token) : Nat := (ts.map (·.len)).sum

theorem call_inv (l : Lexer) (h : LenInv l) (op : Op) :
    LenInv (call l op).2 ∧ (call l op).2.src = l.src ∧ (∀ t ∈ (call l op).1, 0 < t.len) ∧
    (call l op).2.pos - (call l op).2.nextLen = l.pos - l.nextLen + covered (call l op).1 := by
  cases op with
  | next =>
    have st := nextTok_step l h
    unfold call
    generalize l.nextTok = x at *
    obtain ⟨o, l'⟩ := x
    refine ⟨st.inv, st.src, ?_, ?_⟩
    · intro t ht; simp at ht; exact (st.some t ht).1
    · cases o with
      | none => have := st.none rfl; simp only at this; simp [covered]; omega
      | some t => have := st.some _ rfl; simp only at this; simp [covered]; omega
  | peek =>
    have st := peek_step l h
    exact ⟨st.inv, st.src, by simp [call], by simpa [call, covered] using st.at_⟩
  | verbatim b => exact ⟨⟨h.next_le, h.pos_le, h.next_pos⟩, rfl, by simp [call], by simp [call, covered, Lexer.nextLen]⟩

theorem calls_inv (ops : List Op) (l : Lexer) (h : LenInv l) :
    LenInv (calls l ops).2 ∧ (calls l ops).2.src = l.src ∧ (∀ t ∈ (calls l ops).1, 0 < t.len) ∧
    (calls l ops).2.pos - (calls l ops).2.nextLen = l.pos - l.nextLen + covered (calls l ops).1 := by
  induction ops generalizing l with
  | nil => exact ⟨h, rfl, by simp [calls], by simp [calls, covered]⟩
  | cons op ops ih =>
    have h1 := call_inv l h op
    have h2 := ih _ h1.1
    refine ⟨h2.1, by rw [calls, h2.2.1, h1.2.1], ?_, ?_⟩
    · intro t ht
      simp only [calls, List.mem_append] at ht
      rcases ht with ht | ht
      · exact h1.2.2.1 t ht
      · exact h2.2.2.1 t ht
    · simp only [calls, covered, List.map_append, List.sum_append] at *
      omega

theorem calls_bd (ops : List Op) (l : Lexer) (h : BdInv l) : BdInv (calls l ops).2 := by
  induction ops generalizing l with
  | nil => exact h
  | cons op ops ih =>
    refine ih _ ?_
    cases op with
    | next => exact nextTok_bd l h
    | peek => exact peek_bd l h
    | verbatim b => exact ⟨h.safe, h.pos, h.next, h.esc⟩

/-- **C24.** After any sequence of calls to a scanner of `line` (peeking and switching verbatim mode
at will), the tokens yielded are non-empty, cover no more than the line, and the scanner reports its
end exactly when they cover the whole line. -/
theorem C24_scan_loses_nothing (line : Bytes) (ops : List Op) :
    (∀ t ∈ (calls (Lexer.new line) ops).1, 0 < t.len) ∧
    covered (calls (Lexer.new line) ops).1 ≤ line.length ∧
    ((calls (Lexer.new line) ops).2.nextTok.1 = none ↔
      covered (calls (Lexer.new line) ops).1 = line.length) := by
  have h := calls_inv ops _ (LenInv.new line)
  have h0 : (Lexer.new line).pos - (Lexer.new line).nextLen = 0 := by simp [Lexer.new]
  rw [h0] at h
  have hst := nextTok_step _ h.1
  have hp := h.1.pos_le
  have hs : (calls (Lexer.new line) ops).2.src = line := h.2.1
  rw [hs] at hp
  refine ⟨h.2.2.1, by omega, fun hn => ?_, fun hc => ?_⟩
  · have := hst.none hn
    rw [hs] at this; omega
  · cases hn : (calls (Lexer.new line) ops).2.nextTok.1 with
    | none => rfl
    | some t =>
      exfalso
      have h1 := hst.some t hn
      have h2 := hst.inv.pos_le
      have h3 := hst.src
      rw [h3, hs] at h2
      omega

/-- **C24**, plain iteration: the tokens of a line cover it exactly. -/
theorem C24_tokens_cover_line (line : Bytes) :
    covered ((Lexer.new line).tokens (line.length + 1)) = line.length := by
  have key : ∀ (n : Nat) (l : Lexer), LenInv l → l.src.length - (l.pos - l.nextLen) < n →
      covered (l.tokens n) + (l.pos - l.nextLen) = l.src.length := by
    intro n
    induction n with
    | zero => intro l _ h; omega
    | succ n ih =>
      intro l h hn
      have st := nextTok_step l h
      unfold Lexer.tokens
      generalize l.nextTok = x at *
      obtain ⟨o, l'⟩ := x
      cases o with
      | none => have := st.none rfl; simp [covered]; omega
      | some t =>
        have h1 := st.some _ rfl
        have h2 := st.inv.pos_le
        have h3 := st.src
        simp only at h1 h2 h3
        rw [h3] at h2
        have h4 := ih l' st.inv (by rw [h3]; omega)
        simp only [covered, List.map_cons, List.sum_cons] at *
        rw [h3] at h4
        omega
  have := key (line.length + 1) (Lexer.new line) (LenInv.new line) (by simp [Lexer.new])
  simpa [Lexer.new] using this

/-- **C25.** For valid UTF-8, wherever the scanner stops between two tokens is a character boundary. -/
theorem C25_scan_on_char_boundaries (line : Bytes) (hu : Utf8 line) (ops : List Op) :
    isBoundary line (covered (calls (Lexer.new line) ops).1) = true := by
  have h := calls_inv ops _ (LenInv.new line)
  have h0 : (Lexer.new line).pos - (Lexer.new line).nextLen = 0 := by simp [Lexer.new]
  rw [h0, Nat.zero_add] at h
  have hb := calls_bd ops _ (BdInv.new hu.bd hu.safe)
  have hp := h.1.pos_le
  have hs : (calls (Lexer.new line) ops).2.src = line := h.2.1
  have hn := hb.next
  rw [hs] at hp hn
  rw [← h.2.2.2]
  exact isBoundary_of_bd (by omega) hn

/- Concrete cases: an escaped space, a multi-byte character and a peek; the whole line is covered. -/
example : Utf8 (b! "a\\ é`` x") := ⟨"a\\ é`` x".toList, by decide +kernel⟩
example : (calls (Lexer.new (b! "a\\ é`` x")) [.next, .peek, .next, .verbatim true, .next, .next, .next, .next]).1
    = [⟨.text, 1⟩, ⟨.escape, 1⟩, ⟨.nbsp, 1⟩, ⟨.text, 2⟩, ⟨.seq .backtick, 2⟩, ⟨.text, 2⟩] := by decide +kernel

end Jotdown.Lex
