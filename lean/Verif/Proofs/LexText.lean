import Verif.Proofs.Lex
/-! # Bytes of the tokens -/
namespace Jotdown.Lex
open Jotdown

/-- Text of an opening delimiter. -/
def Delimiter.openText : Delimiter → Bytes
  | .brace => b! "{" | .braceAsterisk => b! "{*" | .braceCaret => b! "{^" | .braceEqual => b! "{="
  | .braceHyphen => b! "{-" | .bracePlus => b! "{+" | .braceTilde => b! "{~" | .braceUnderscore => b! "{_"
  | .bracket => b! "[" | .braceQuote1 => b! "{'" | .braceQuote2 => b! "{\"" | .paren => b! "("

/-- Text of a closing delimiter. -/
def Delimiter.closeText : Delimiter → Bytes
  | .brace => b! "}" | .braceAsterisk => b! "*}" | .braceCaret => b! "^}" | .braceEqual => b! "=}"
  | .braceHyphen => b! "-}" | .bracePlus => b! "+}" | .braceTilde => b! "~}" | .braceUnderscore => b! "_}"
  | .bracket => b! "]" | .braceQuote1 => b! "'}" | .braceQuote2 => b! "\"}" | .paren => b! ")"

/-- Text of a symbol. -/
def Symbol.text : Symbol → Bytes
  | .asterisk => b! "*" | .caret => b! "^" | .exclaimBracket => b! "![" | .lt => b! "<" | .pipe => b! "|"
  | .quote1 => b! "'" | .quote2 => b! "\"" | .tilde => b! "~" | .underscore => b! "_" | .colon => b! ":"

/-- The text of a token of the kind with the length. -/
def TextOf (s : Bytes) : Kind → Prop
  | .opn d => s = d.openText
  | .cls d => s = d.closeText
  | .sym y => s = y.text
  | .seq q => s = List.replicate s.length q.ch
  | .newline => s = [c! '\n']
  | .escape => s = [c! '\\']
  | .nbsp => s = [c! ' ']
  | .hardbreak => ∃ b, (∀ x ∈ b, x = c! ' ' ∨ x = c! '\t') ∧ s = b ++ [c! '\n']
  | .text => True

/-- A single opening brace is not the start of another opening delimiter. -/
def BraceOk (rest : Bytes) (k : Kind) : Prop := k = .opn .brace → (rest.drop 1).head?.bind explicitOpen = none

/-- The token is at the start of `rest`. -/
def TokText (rest : Bytes) (t : Token) : Prop := TextOf (rest.take t.len) t.kind ∧ BraceOk rest t.kind

theorem TokText.text (rest : Bytes) (n : Nat) : TokText rest ⟨.text, n⟩ := ⟨trivial, by simp [BraceOk]⟩

theorem maybeCloseBrace_text {c : UInt8} {r : Bytes} {k : Kind} {d : Delimiter} (h1 : TextOf [c] k)
    (h2 : [c, c! '}'] = d.closeText) : TextOf ((c :: r).take (maybeCloseBrace r k d).2) (maybeCloseBrace r k d).1 := by
  unfold maybeCloseBrace
  cases r with
  | nil => simpa using h1
  | cons x r =>
    simp only [List.head?_cons, Option.some.injEq]
    split
    · rename_i hx
      subst hx
      simpa [TextOf] using h2
    · simpa using h1

theorem explicitOpen_text (x : UInt8) : ∀ d, explicitOpen x = some d → [c! '{', x] = d.openText := by
  revert x; apply ofFin
  decide +kernel

theorem braceTok_text (r : Bytes) : TextOf ((c! '{' :: r).take (braceTok r).2) (braceTok r).1 := by
  unfold braceTok
  cases r with
  | nil => simp [TextOf, Delimiter.openText]
  | cons x r =>
    simp only [List.head?_cons, Option.bind_some]
    split
    · rename_i d hd
      simpa [TextOf] using explicitOpen_text x d hd
    · simp [TextOf, Delimiter.openText]

theorem hyphens_text (r : Bytes) : r.take (hyphens r) = List.replicate (hyphens r) (c! '-') := by
  induction r with
  | nil => rfl
  | cons x r ih =>
    unfold hyphens
    split
    · rename_i r' heq
      injection heq with h1 h2; subst h1 h2
      split
      · rfl
      · rw [Nat.add_comm, List.take_succ_cons, ih, List.replicate_succ]
    · rfl

theorem countWhile_text (c : UInt8) (r : Bytes) :
    r.take (countWhile (· == c) r) = List.replicate (countWhile (· == c) r) c := by
  induction r with
  | nil => rfl
  | cons x r ih =>
    unfold countWhile at *
    simp only [List.takeWhile_cons]
    split
    · rename_i h
      simp at h; subst h
      simp [ih, List.replicate_succ]
    · rfl

theorem seq_text {q : Sequence} {r : Bytes} {n : Nat} (h : r.take n = List.replicate n q.ch) :
    TextOf ((q.ch :: r).take (1 + n)) (.seq q) := by
  unfold TextOf
  rw [Nat.add_comm, List.take_succ_cons, h]
  simp [List.replicate_succ]

theorem specialTok_text (v : Bool) (c : UInt8) (r : Bytes) :
    TextOf ((c :: r).take (specialTok v c r).1.2) (specialTok v c r).1.1 := by
  unfold specialTok
  repeat' (refine ite_intro (P := fun x : (Kind × Nat) × Bool => TextOf ((c :: r).take x.1.2) x.1.1) (fun h => ?_) (fun h => ?_))
  all_goals try subst h
  all_goals first
    | trivial
    | exact braceTok_text r
    | exact maybeCloseBrace_text (by simp [TextOf, Symbol.text]) (by decide)
    | exact maybeCloseBrace_text (by trivial) (by decide)
    | exact seq_text (q := .hyphen) (hyphens_text r)
    | exact seq_text (q := .backtick) (countWhile_text _ r)
    | exact seq_text (q := .period) (countWhile_text _ r)
    | (simp [TextOf, Delimiter.openText, Delimiter.closeText, Symbol.text]; done)
    | skip
  · unfold backslashTok
    split
    · trivial
    · split
      · simp [TextOf]
      · trivial
  · rename_i hc
    subst hc
    cases r with
    | nil => simp at h
    | cons x r => simp at h; subst h; simp [TextOf, Delimiter.closeText]
  · rename_i hc
    subst hc
    exact seq_text (q := .hyphen) (hyphens_text r)
  · rename_i hc
    subst hc
    cases r with
    | nil => simp at h
    | cons x r => simp at h; subst h; simp [TextOf, Symbol.text]

theorem maybeCloseBrace_brace {s r : Bytes} {k : Kind} {d : Delimiter} (h1 : k ≠ .opn .brace) :
    BraceOk s (maybeCloseBrace r k d).1 := by
  unfold maybeCloseBrace
  split
  · simp [BraceOk]
  · intro h; exact absurd h h1

theorem specialTok_brace (v : Bool) (c : UInt8) (r : Bytes) : BraceOk (c :: r) (specialTok v c r).1.1 := by
  unfold specialTok
  repeat' (refine ite_intro (P := fun x : (Kind × Nat) × Bool => BraceOk (c :: r) x.1.1) (fun h => ?_) (fun h => ?_))
  all_goals first
    | (simp [BraceOk]; done)
    | exact maybeCloseBrace_brace (by simp)
    | skip
  · unfold backslashTok
    split
    · simp [BraceOk]
    · split <;> simp [BraceOk]
  · unfold braceTok
    intro hb
    split at hb
    · rename_i d hd
      cases hb
      exfalso
      cases r with
      | nil => simp at hd
      | cons x r =>
        have := explicitOpen_text x _ hd
        simp [Delimiter.openText] at this
    · assumption

theorem blanks_text (r : Bytes) (h : (r.dropWhile (fun c => c == c! ' ' || c == c! '\t')).head? = some (c! '\n')) :
    ∃ b, (∀ x ∈ b, x = c! ' ' ∨ x = c! '\t') ∧
      r.take (countWhile (fun c => c == c! ' ' || c == c! '\t') r + 1) = b ++ [c! '\n'] := by
  induction r with
  | nil => simp at h
  | cons x r ih =>
    unfold countWhile at *
    simp only [List.takeWhile_cons, List.dropWhile_cons] at *
    by_cases hx : (x == c! ' ' || x == c! '\t') = true
    · rw [if_pos hx] at h ⊢
      obtain ⟨b, h1, h2⟩ := ih h
      refine ⟨x :: b, ?_, ?_⟩
      · intro y hy
        simp at hy
        rcases hy with rfl | hy
        · simpa using hx
        · exact h1 y hy
      · simp only [List.length_cons, List.take_succ_cons, List.cons_append]
        rw [h2]
    · rw [if_neg hx] at h ⊢
      simp at h
      subst h
      exact ⟨[], by simp, by simp⟩

theorem tokenAt_text (e v : Bool) (rest : Bytes) (t : Token) (e' : Bool)
    (h : tokenAt e v rest = (some t, e')) : TokText rest t := by
  unfold tokenAt at h
  split at h
  · split at h
    · simp at h
    · simp only [Prod.mk.injEq, Option.some.injEq] at h
      obtain ⟨rfl, -⟩ := h
      unfold TokText escapedTok
      simp only
      split
      · rename_i hc
        exact ⟨⟨[], by simp, by simp [hc]⟩, by simp [BraceOk]⟩
      · split
        · rename_i c r _ hc
          refine ⟨?_, by simp [BraceOk]⟩
          obtain ⟨b, h1, h2⟩ := blanks_text r hc.2
          refine ⟨c :: b, ?_, ?_⟩
          · intro y hy
            simp at hy
            rcases hy with rfl | hy
            · rcases hc.1 with h | h
              · exact .inr h
              · exact .inl h
            · exact h1 y hy
          · show (c :: r).take (1 + countWhile _ r + 1) = _
            rw [show 1 + countWhile (fun c => c == c! ' ' || c == c! '\t') r + 1 = (countWhile (fun c => c == c! ' ' || c == c! '\t') r + 1) + 1 by omega]
            rw [List.take_succ_cons, h2]; rfl
        · split
          · rename_i hc
            exact ⟨by simp [TextOf, hc], by simp [BraceOk]⟩
          · exact ⟨trivial, by simp [BraceOk]⟩
  · split at h
    · simp only [Prod.mk.injEq, Option.some.injEq] at h; obtain ⟨rfl, -⟩ := h
      exact .text _ _
    · split at h
      · simp at h
      · simp only [Prod.mk.injEq, Option.some.injEq] at h
        obtain ⟨rfl, -⟩ := h
        exact ⟨specialTok_text _ _ _, specialTok_brace _ _ _⟩

theorem token_text (l : Lexer) (t : Token) (h : l.token.1 = some t) : TokText (l.src.drop l.pos) t := by
  unfold Lexer.token at h
  split at h
  · simp at h
  · rename_i t' e heq
    simp at h; subst h
    exact tokenAt_text _ _ _ _ _ heq

/-- The stored token is the text before the position. -/
def TextInv (l : Lexer) : Prop := ∀ t, l.next = some t → TokText (l.src.drop (l.pos - t.len)) t

theorem TextInv.new (s : Bytes) : TextInv (Lexer.new s) := by intro t h; simp [Lexer.new] at h

theorem concatText_text (l : Lexer) (len : Nat) (hn : l.next = none) : TextInv (l.concatText len).2 := by
  fun_induction Lexer.concatText l len with
  | case1 l len n l' hl ih =>
    have st := token_step l
    rw [hl] at st
    exact ih (by rw [← hn]; exact st.next)
  | case2 l len t l' hne hl =>
    have st := token_step l
    intro t' ht
    simp only at ht
    subst ht
    have := token_text l t' (by rw [hl])
    rw [hl] at st
    have h1 := (st.some t' rfl).2.1
    have h2 := st.src
    simp only at h1 h2 ⊢
    rw [h2, h1, Nat.add_sub_cancel]
    exact this

theorem nextTok_text (l : Lexer) (h : TextInv l) :
    (∀ t, l.nextTok.1 = some t → TokText (l.src.drop (l.pos - l.nextLen)) t) ∧ TextInv l.nextTok.2 := by
  unfold Lexer.nextTok
  split
  · rename_i t ht
    refine ⟨?_, ?_⟩
    · intro t' ht'; simp at ht'; subst ht'
      simp only [Lexer.nextLen, ht]
      exact h t ht
    · intro t' ht'; simp at ht'
  · rename_i hn
    have hnl : l.nextLen = 0 := by simp [Lexer.nextLen, hn]
    rw [hnl, Nat.sub_zero]
    unfold Lexer.nextToken
    have st := token_step l
    split
    · rename_i n l' heq
      rw [heq] at st
      refine ⟨?_, concatText_text l' n (by rw [← hn]; exact st.next)⟩
      intro t ht; simp at ht; subst ht
      exact .text _ _
    · rename_i t l' hne heq
      rw [heq] at st
      refine ⟨?_, ?_⟩
      · intro t' ht'
        exact token_text l t' (by rw [heq]; exact ht')
      · intro t' ht'
        have := st.next
        simp only at this
        simp only [this, hn] at ht'
        simp at ht'

theorem peek_text (l : Lexer) (h : TextInv l) :
    (∀ t, l.peek.1 = some t → TokText (l.src.drop (l.pos - l.nextLen)) t) ∧ TextInv l.peek.2 := by
  unfold Lexer.peek
  split
  · rename_i t ht
    refine ⟨?_, h⟩
    intro t' ht'; simp at ht'; subst ht'
    simp only [Lexer.nextLen, ht]
    exact h t ht
  · rename_i hn
    have hnl : l.nextLen = 0 := by simp [Lexer.nextLen, hn]
    rw [hnl, Nat.sub_zero]
    have st := token_step l
    refine ⟨fun t ht => token_text l t ht, ?_⟩
    intro t ht
    simp only at ht
    have := token_text l t ht
    have h1 := (st.some t ht).2.1
    have h2 := st.src
    simp only [h2, h1, Nat.add_sub_cancel]
    exact this

end Jotdown.Lex
