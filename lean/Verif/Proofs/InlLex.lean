import Verif.Proofs.LexVerb
/-! # The lexer as a stream of tokens over the remaining text -/
namespace Jotdown.Lex
open Jotdown

/-- The text not yet yielded by the lexer. -/
structure Rem (l : Lexer) (r : Bytes) : Prop where
  len : LenInv l
  bd : BdInv l
  text : TextInv l
  rest : l.src.drop (l.pos - l.nextLen) = r
  esc : EscInv l

theorem Rem.new {s : Bytes} (hb : Bd s) (hs : Safe s) : Rem (Lexer.new s) s :=
  ⟨.new s, .new hb hs, .new s, by simp [Lexer.new, Lexer.nextLen], .new s⟩

theorem Rem.verbatim {l : Lexer} {r : Bytes} (h : Rem l r) (b : Bool) : Rem { l with verbatim := b } r :=
  ⟨⟨h.len.next_le, h.len.pos_le, h.len.next_pos⟩, ⟨h.bd.safe, h.bd.pos, h.bd.next, h.bd.esc⟩, h.text, h.rest, h.esc⟩

theorem Rem.isBd {l : Lexer} {r : Bytes} (h : Rem l r) : Bd r := by rw [← h.rest]; exact h.bd.next
theorem Rem.isSafe {l : Lexer} {r : Bytes} (h : Rem l r) : Safe r := by rw [← h.rest]; exact h.bd.safe.drop _

theorem Rem.length {l : Lexer} {r : Bytes} (h : Rem l r) : r.length = l.src.length - (l.pos - l.nextLen) := by
  rw [← h.rest]; simp

theorem nextTok_next {l : Lexer} {t : Token} (h : l.nextTok.1 = some t) (ht : t.kind ≠ .text) : l.nextTok.2.next = none := by
  unfold Lexer.nextTok at *
  split at h
  · rfl
  · rename_i hn
    unfold Lexer.nextToken at *
    split at h
    · simp only [Option.some.injEq] at h
      subst h
      simp at ht
    · rename_i t' l' hne heq
      have := (token_step l).next
      rw [heq] at this
      simp only at this ⊢
      rw [this, hn]

structure Eaten (r : Bytes) (t : Token) (l' : Lexer) : Prop where
  pos : 0 < t.len
  le : t.len ≤ r.length
  text : TokText r t
  rem : Rem l' (r.drop t.len)
  next : t.kind ≠ .text → l'.next = none
  esc : t.kind = .seq .backtick → l'.escape = false ∧ (r.drop t.len).head? ≠ some (c! '`')

theorem Rem.nextTok_some {l : Lexer} {r : Bytes} (h : Rem l r) {t : Token} (ht : l.nextTok.1 = some t) :
    Eaten r t l.nextTok.2 := by
  have st := nextTok_step l h.len
  have hb := nextTok_bd l h.bd
  have hx := nextTok_text l h.text
  have he := nextTok_esc l h.esc
  have h1 := st.some t ht
  have h2 := st.inv
  have h3 := h.length
  have hp := h2.pos_le
  have hq := h2.next_le
  rw [st.src] at hp
  refine ⟨h1.1, by omega, ?_, ⟨h2, hb, hx.2, ?_, he.2⟩, nextTok_next ht, fun hk => ?_⟩
  · have := hx.1 t ht
    rwa [h.rest] at this
  · rw [h1.2, st.src, ← h.rest, List.drop_drop]
  · obtain ⟨e1, e2⟩ := he.1 t ht (by rw [hk]; simp)
    refine ⟨e1 (by rw [hk]; simp), ?_⟩
    have e3 := e2 hk
    have hz : l.nextTok.2.nextLen = 0 := by unfold Lexer.nextLen; rw [nextTok_next ht (by rw [hk]; simp)]
    have h4 := h1.2
    rw [hz, Nat.sub_zero] at h4
    rw [h4, st.src, ← List.drop_drop, h.rest] at e3
    exact e3

theorem Rem.nextTok_none {l : Lexer} {r : Bytes} (h : Rem l r) (ht : l.nextTok.1 = none) :
    r = [] ∧ Rem l.nextTok.2 [] := by
  have st := nextTok_step l h.len
  have hb := nextTok_bd l h.bd
  have hx := nextTok_text l h.text
  have he := nextTok_esc l h.esc
  have h1 := st.none ht
  refine ⟨?_, st.inv, hb, hx.2, ?_, he.2⟩
  · rw [← h.rest, h1.1]; simp
  · rw [st.src, h1.2]; simp

theorem Rem.nextTok_nil {l : Lexer} (h : Rem l []) : l.nextTok.1 = none := by
  cases ht : l.nextTok.1 with
  | none => rfl
  | some t =>
    have := h.nextTok_some ht
    have h1 := this.pos
    have h2 := this.le
    simp at h2
    omega

structure Peeked (r : Bytes) (o : Option Token) (l' : Lexer) : Prop where
  rem : Rem l' r
  tok : l'.nextTok.1 = o
  some : ∀ t, o = some t → TokText r t ∧ 0 < t.len ∧ t.len ≤ r.length
  none : o = none → r = []
  next : ∀ t, o = Option.some t → l'.nextTok.2.next = Option.none

theorem Rem.peek {l : Lexer} {r : Bytes} (h : Rem l r) : Peeked r l.peek.1 l.peek.2 := by
  have st := peek_step l h.len
  have hb := peek_bd l h.bd
  have hx := peek_text l h.text
  have hr : Rem l.peek.2 r := ⟨st.inv, hb, hx.2, by rw [st.src, st.at_]; exact h.rest, peek_esc l h.esc⟩
  have hn : ∀ t, l.peek.1 = some t → l.peek.2.nextTok = (some t, { l.peek.2 with next := none }) := by
    intro t ht
    unfold Lexer.nextTok
    rw [st.next, ht]
  refine ⟨hr, ?_, ?_, ?_, ?_⟩
  · cases ho : l.peek.1 with
    | none =>
      have := st.none ho
      have hr0 : r = [] := by rw [← h.rest, this]; simp
      subst hr0
      exact hr.nextTok_nil
    | some t => rw [hn t ho]
  · intro t ht
    have := hr.nextTok_some (t := t) (by rw [hn t ht])
    exact ⟨this.text, this.pos, this.le⟩
  · intro ho
    have := st.none ho
    rw [← h.rest, this]; simp
  · intro t ht; rw [hn t ht]

theorem Rem.ahead {l : Lexer} {r : Bytes} (h : Rem l r) : l.ahead = .ok r := by
  unfold Lexer.ahead csub byteSlice
  have h1 := h.len.next_le
  have h2 := h.len.pos_le
  rw [if_pos h1]
  simp only [Bind.bind, Except.bind]
  rw [if_pos ⟨by omega, Nat.le_refl _⟩, ← h.rest]
  congr 1
  rw [List.take_of_length_le]
  simp

theorem Rem.skip {l : Lexer} {r : Bytes} (h : Rem l r) (hn : l.next = none) {n : Nat} (hle : n ≤ r.length)
    (hb : Bd (r.drop n)) : ∃ l', l.skipAhead n = .ok l' ∧ Rem l' (r.drop n) := by
  have h1 : l.nextLen = 0 := by simp [Lexer.nextLen, hn]
  have h2 := h.len.pos_le
  have h3 := h.length
  have h4 := h.rest
  rw [h1, Nat.sub_zero] at h3 h4
  refine ⟨Lexer.new (r.drop n), ?_, .new hb (h.isSafe.drop _)⟩
  unfold Lexer.skipAhead byteSlice
  rw [if_pos ⟨by omega, Nat.le_refl _⟩]
  simp only [Bind.bind, Except.bind, Pure.pure, Except.pure]
  congr 2
  rw [← h4, List.drop_drop, List.take_of_length_le]
  simp

/-- A brace is lexed as such from the start. -/
theorem new_brace {r : Bytes} (h : r.head? = some (c! '{')) (hb : (r.drop 1).head?.bind explicitOpen = none) :
    (Lexer.new r).nextTok.1 = some ⟨.opn .brace, 1⟩ := by
  cases r with
  | nil => simp at h
  | cons c r =>
    simp at h
    subst h
    have ht : (Lexer.new ((123 : UInt8) :: r)).token = (some ⟨.opn .brace, 1⟩, { (Lexer.new ((123 : UInt8) :: r)) with pos := 1 }) := by
      have h1 : tokenAt false false ((123 : UInt8) :: r) = (some ⟨.opn .brace, 1⟩, false) := by
        have hb' : r.head?.bind explicitOpen = none := hb
        simp [tokenAt, countWhile, isSpecial, specialTok, braceTok, hb']
      unfold Lexer.token Lexer.rest
      simp only [Lexer.new, List.drop_zero]
      rw [h1]; rfl
    unfold Lexer.nextTok Lexer.nextToken
    rw [ht]
    simp [Lexer.new]

/-- The lexer reads verbatim text. -/
structure VMode (l : Lexer) (r : Bytes) : Prop where
  verb : l.verbatim = true
  esc : l.escape = false
  next : ∀ t, l.next = some t → VTok r t

theorem token_v {l : Lexer} (h1 : l.verbatim = true) (h2 : l.escape = false) :
    l.token.2.verbatim = true ∧ l.token.2.escape = false ∧ ∀ t, l.token.1 = some t → VTok (l.src.drop l.pos) t := by
  unfold Lexer.token
  rw [h1, h2]
  split
  · rename_i e heq
    refine ⟨rfl, ?_, fun t h => by cases h⟩
    unfold tokenAt at heq
    rw [if_neg (by simp)] at heq
    split at heq
    · cases heq
    · split at heq
      · cases heq; rfl
      · cases heq
  · rename_i t e heq
    obtain ⟨h3, h4⟩ := tokenAt_v heq
    refine ⟨rfl, h4, ?_⟩
    intro t' ht
    simp at ht
    subst ht
    exact h3

theorem concatText_v (l : Lexer) (len s : Nat) (hs : l.pos = s + len) (hn : l.next = none) (h1 : l.verbatim = true) (h2 : l.escape = false) (h3 : c! '`' ∉ (l.src.drop s).take len) :
    c! '`' ∉ (l.src.drop s).take (l.concatText len).1 ∧ VMode (l.concatText len).2 (l.src.drop (s + (l.concatText len).1)) := by
  fun_induction Lexer.concatText l len with
  | case1 l len n l' hl ih =>
    have st := token_step l
    obtain ⟨t1, t2, t3⟩ := token_v h1 h2
    rw [hl] at st t1 t2 t3
    have h4 := (st.some _ rfl).2.1
    have h5 := st.src
    simp only at h4 h5 t1 t2
    have h6 := (t3 _ rfl).2 (by simp)
    simp only at h6
    have := ih (by omega) (by rw [← hn]; exact st.next) t1 t2 (by
      rw [h5, List.take_add, List.drop_drop]
      rw [hs] at h6
      intro hm
      rcases List.mem_append.1 hm with hm | hm
      · exact h3 hm
      · exact h6 hm)
    rw [h5] at this
    exact this
  | case2 l len t l' hne hl =>
    obtain ⟨t1, t2, t3⟩ := token_v h1 h2
    rw [hl] at t1 t2 t3
    refine ⟨h3, t1, t2, ?_⟩
    intro t' ht
    have := t3 t' ht
    rw [hs] at this
    exact this

theorem nextTok_v {l : Lexer} {r : Bytes} (h : VMode l r) (hr : Rem l r) {t : Token} (ht : l.nextTok.1 = some t) :
    VTok r t ∧ VMode l.nextTok.2 (r.drop t.len) := by
  have hrest := hr.rest
  revert ht
  unfold Lexer.nextTok
  split
  · rename_i t' h'
    intro ht
    simp at ht
    subst ht
    exact ⟨h.next _ h', h.verb, h.esc, fun _ h => by cases h⟩
  · rename_i hn
    have hnl : l.nextLen = 0 := by simp [Lexer.nextLen, hn]
    rw [hnl, Nat.sub_zero] at hrest
    unfold Lexer.nextToken
    have st := token_step l
    obtain ⟨t1, t2, t3⟩ := token_v h.verb h.esc
    split
    · rename_i n l' heq
      rw [heq] at st t1 t2 t3
      intro ht
      simp at ht
      subst ht
      have h4 := (st.some _ rfl).2.1
      have h5 := st.src
      simp only at h4 h5 t1 t2
      have h6 := (t3 _ rfl).2 (by simp)
      simp only at h6
      have := concatText_v l' n l.pos h4 (by rw [← hn]; exact st.next) t1 t2 (by rw [h5]; exact h6)
      rw [h5] at this
      rw [← List.drop_drop, hrest] at this
      exact ⟨⟨(fun h => by cases h), fun _ => this.1⟩, this.2⟩
    · rename_i t' l' hne heq
      rw [heq] at st t1 t2 t3
      intro ht
      simp only at ht
      subst ht
      have := t3 _ rfl
      rw [hrest] at this
      refine ⟨this, t1, t2, ?_⟩
      intro t' ht'
      have := st.next
      simp only at this
      simp only [this, hn] at ht'
      cases ht'

theorem peek_v {l : Lexer} {r : Bytes} (h : VMode l r) (hr : Rem l r) : VMode l.peek.2 r := by
  have hrest := hr.rest
  unfold Lexer.peek
  split
  · exact h
  · rename_i hn
    have hnl : l.nextLen = 0 := by simp [Lexer.nextLen, hn]
    rw [hnl, Nat.sub_zero] at hrest
    obtain ⟨t1, t2, t3⟩ := token_v h.verb h.esc
    rw [hrest] at t3
    exact ⟨t1, t2, t3⟩

end Jotdown.Lex
