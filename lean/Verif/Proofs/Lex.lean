import Verif.Proofs.Ident
/-! # Helper lemmas: the inline scanner -/
namespace Jotdown.Lex
open Jotdown

/-- The first byte, if any, is ASCII. -/
def AsciiHead (s : Bytes) : Prop := ∀ c, s.head? = some c → c < 128

theorem AsciiHead.bd {s : Bytes} (h : AsciiHead s) : Bd s := fun c hc => not_isCont_of_lt (h c hc)

theorem isSpecial_lt (c : UInt8) (h : isSpecial c = true) : c < 128 := by
  revert h; revert c; apply ofFin; decide +kernel

theorem wsPunct_lt (c : UInt8) (h : (isWs c || isPunct c) = true) : c < 128 := by
  revert h; revert c; apply ofFin; decide +kernel

theorem countWhile_drop (p : UInt8 → Bool) (s : Bytes) : s.drop (countWhile p s) = s.dropWhile p := by
  induction s with
  | nil => rfl
  | cons c s ih =>
    unfold countWhile at *
    simp only [List.takeWhile_cons, List.dropWhile_cons]
    split <;> simp_all

theorem dropWhile_head (p : UInt8 → Bool) (s : Bytes) (c : UInt8) (h : (s.dropWhile p).head? = some c) :
    p c = false := by
  have := List.head?_dropWhile_not p s
  rw [h] at this
  simpa using this

theorem Safe.bd_cons2 {a b : UInt8} {r : Bytes} (h : Safe (a :: b :: r)) (hb : b < 128) : Bd r := h.2.1 hb

theorem hyphens_bd (r : Bytes) (hb : Bd r) (hs : Safe r) : Bd (r.drop (hyphens r)) := by
  induction r with
  | nil => simp
  | cons c r ih =>
    unfold hyphens
    split
    · rename_i r' heq
      injection heq with h1 h2; subst h1 h2
      split
      · simpa using hb
      · rw [Nat.add_comm, List.drop_succ_cons]
        exact ih (hs.1 (by decide)) hs.2
    · simpa using hb

/-- A token consumes whole characters, and an escaping backslash is followed by an ASCII byte. -/
def TokBd (rest : Bytes) (k : (Kind × Nat) × Bool) : Prop :=
  Bd (rest.drop k.1.2) ∧ (k.2 = true → AsciiHead (rest.drop k.1.2))

theorem head_drop2 {c : UInt8} {r : Bytes} {x : UInt8} (h : r.head? = some x) (hx : x < 128) (hs : Safe (c :: r)) :
    Bd ((c :: r).drop 2) := by
  cases r with
  | nil => simp
  | cons d r => simp at h; subst h; exact hs.2.1 hx

theorem explicitOpen_lt (c : UInt8) (h : (explicitOpen c).isSome = true) : c < 128 := by
  revert h; revert c; apply ofFin; decide +kernel

theorem specialTok_bd (v : Bool) (c : UInt8) (r : Bytes) (hc : c < 128) (hs : Safe (c :: r)) :
    TokBd (c :: r) (specialTok v c r) := by
  have h1 : Bd ((c :: r).drop 1) := hs.1 hc
  have hm : ∀ k d, Bd ((c :: r).drop (maybeCloseBrace r k d).2) := by
    intro k d
    unfold maybeCloseBrace
    refine ite_intro (P := fun x : Kind × Nat => Bd ((c :: r).drop x.2)) (fun h => ?_) (fun h => ?_)
    · exact head_drop2 h (by decide) hs
    · exact h1
  have hbr : Bd ((c :: r).drop (braceTok r).2) := by
    unfold braceTok
    split
    · rename_i d hd
      cases r with
      | nil => simp
      | cons x r =>
        simp only [List.head?_cons, Option.bind_some] at hd
        exact head_drop2 (x := x) rfl (explicitOpen_lt x (by rw [hd]; rfl)) hs
    · exact h1
  have hbs : TokBd (c :: r) (backslashTok v r) := by
    unfold backslashTok
    split
    · exact ⟨h1, by simp⟩
    · rename_i d r
      split
      · rename_i hd
        refine ⟨h1, fun _ => ?_⟩
        intro x hx
        simp at hx; subst hx
        exact wsPunct_lt _ hd
      · exact ⟨h1, by simp⟩
  have hhy : Bd ((c :: r).drop (1 + hyphens r)) := by
    rw [Nat.add_comm, List.drop_succ_cons]; exact hyphens_bd r h1 hs.2
  have hcw : ∀ x : UInt8, x < 128 → Bd ((c :: r).drop (1 + countWhile (· == x) r)) := by
    intro x hx
    rw [Nat.add_comm, List.drop_succ_cons]
    exact Block.countWhile_bd (by intro y hy; simp at hy; rw [hy]; exact hx) h1 hs.2
  unfold specialTok
  repeat' (refine ite_intro (P := TokBd (c :: r)) (fun h => ?_) (fun h => ?_))
  all_goals first
    | exact hbs
    | exact ⟨hbr, by simp⟩
    | exact ⟨hm _ _, by simp⟩
    | exact ⟨h1, by simp⟩
    | exact ⟨hhy, by simp⟩
    | exact ⟨hcw _ (by decide), by simp⟩
    | exact ⟨head_drop2 ‹_› (by decide) hs, by simp⟩

theorem escapedTok_bd (c : UInt8) (r : Bytes) (hc : c < 128) (hs : Safe (c :: r)) :
    Bd ((c :: r).drop (escapedTok c r).2) := by
  have h1 : Bd ((c :: r).drop 1) := hs.1 hc
  unfold escapedTok
  split
  · exact h1
  · split
    · rename_i hh
      have hd := hh.2
      simp only
      rw [show 1 + countWhile (fun c => c == 32 || c == 9) r + 1 = (countWhile (fun c => c == 32 || c == 9) r + 1) + 1 by omega,
        List.drop_succ_cons, ← List.drop_drop, countWhile_drop]
      have hsr : Safe (r.dropWhile (fun c => c == 32 || c == 9)) := by
        rw [← countWhile_drop]; exact hs.2.drop _
      cases hw : r.dropWhile (fun c => c == 32 || c == 9) with
      | nil => rw [hw] at hd; simp at hd
      | cons x xs =>
        rw [hw] at hd hsr; simp at hd; subst hd
        exact hsr.1 (by decide)
    · split
      · exact h1
      · exact h1

theorem tokenAt_bd (e v : Bool) (rest : Bytes) (hb : Bd rest) (hs : Safe rest)
    (he : e = true → AsciiHead rest) (t : Token) (e' : Bool)
    (h : tokenAt e v rest = (some t, e')) :
    Bd (rest.drop t.len) ∧ (e' = true → AsciiHead (rest.drop t.len)) := by
  unfold tokenAt at h
  split at h
  · rename_i hee
    split at h
    · simp at h
    · simp only [Prod.mk.injEq, Option.some.injEq] at h
      obtain ⟨rfl, rfl⟩ := h
      exact ⟨escapedTok_bd _ _ (he hee _ rfl) hs, by simp⟩
  · split at h
    · simp only [Prod.mk.injEq, Option.some.injEq] at h; obtain ⟨rfl, rfl⟩ := h
      refine ⟨?_, by simp⟩
      simp only [countWhile_drop]
      intro c hc
      have := dropWhile_head _ _ _ hc
      exact not_isCont_of_lt (isSpecial_lt c (by simpa using this))
    · split at h
      · simp at h
      · rename_i _ c r hn
        have hsp : isSpecial c = true := by
          cases hcs : isSpecial c with
          | true => rfl
          | false =>
            exfalso; apply hn
            unfold countWhile
            simp [List.takeWhile_cons, hcs]
        have := specialTok_bd v c r (isSpecial_lt c hsp) hs
        simp only [Prod.mk.injEq, Option.some.injEq] at h
        obtain ⟨rfl, rfl⟩ := h
        exact this

theorem tokenAt_none (e v : Bool) (rest : Bytes) (e' : Bool) (h : tokenAt e v rest = (none, e')) :
    rest = [] ∧ e' = false := by
  unfold tokenAt at h
  split at h
  · split at h <;> simp_all
  · split at h
    · simp at h
    · split at h <;> simp_all

/-! ## Invariant of the scanner -/

/-- Positions are in range. -/
structure LenInv (l : Lexer) : Prop where
  next_le : l.nextLen ≤ l.pos
  pos_le : l.pos ≤ l.src.length
  next_pos : ∀ t, l.next = some t → 0 < t.len

/-- Positions are character boundaries. -/
structure BdInv (l : Lexer) : Prop where
  safe : Safe l.src
  pos : Bd (l.src.drop l.pos)
  next : Bd (l.src.drop (l.pos - l.nextLen))
  esc : l.escape = true → AsciiHead (l.src.drop l.pos)

theorem LenInv.new (s : Bytes) : LenInv (Lexer.new s) := ⟨by simp [Lexer.nextLen, Lexer.new], by simp [Lexer.new], by simp [Lexer.new]⟩

theorem BdInv.new {s : Bytes} (hb : Bd s) (hs : Safe s) : BdInv (Lexer.new s) :=
  ⟨hs, by simpa [Lexer.new], by simpa [Lexer.new], by simp [Lexer.new]⟩

/-- What `token` does. -/
structure TokenStep (l : Lexer) (o : Option Token) (l' : Lexer) : Prop where
  src : l'.src = l.src
  next : l'.next = l.next
  verbatim : l'.verbatim = l.verbatim
  some : ∀ t, o = some t → 0 < t.len ∧ l'.pos = l.pos + t.len ∧ l'.pos ≤ l.src.length
  none : o = none → l'.pos = l.pos ∧ l.src.length ≤ l.pos

theorem token_step (l : Lexer) : TokenStep l l.token.1 l.token.2 := by
  unfold Lexer.token
  split
  · rename_i e heq
    refine ⟨rfl, rfl, rfl, by simp, fun _ => ⟨rfl, ?_⟩⟩
    have := (tokenAt_none _ _ _ _ heq).1
    unfold Lexer.rest at this
    simpa using this
  · rename_i t e heq
    refine ⟨rfl, rfl, rfl, ?_, by simp⟩
    intro t' ht; simp at ht; subst ht
    have := tokenAt_len _ _ _ _ _ heq
    simp only [Lexer.rest, List.length_drop] at this
    exact ⟨this.1, rfl, by simp only; omega⟩

theorem token_bd (l : Lexer) (hs : Safe l.src) (hb : Bd (l.src.drop l.pos))
    (he : l.escape = true → AsciiHead (l.src.drop l.pos)) :
    Bd (l.src.drop l.token.2.pos) ∧ (l.token.2.escape = true → AsciiHead (l.src.drop l.token.2.pos)) := by
  unfold Lexer.token
  split
  · rename_i e heq
    have := (tokenAt_none _ _ _ _ heq).2
    subst this
    exact ⟨hb, by simp⟩
  · rename_i t e heq
    have := tokenAt_bd _ _ _ hb (hs.drop _) he _ _ heq
    simp only [Lexer.rest, List.drop_drop] at this
    exact this

/-- What `next_token`, `peek` and `next` do: `n` bytes are yielded. -/
theorem concatText_step (l : Lexer) (len : Nat) (hn : l.next = none) (hp : l.pos ≤ l.src.length) :
    (l.concatText len).2.src = l.src ∧ (l.concatText len).2.verbatim = l.verbatim ∧
    LenInv (l.concatText len).2 ∧ len ≤ (l.concatText len).1 ∧
    (l.concatText len).2.pos - (l.concatText len).2.nextLen + len = l.pos + (l.concatText len).1 := by
  fun_induction Lexer.concatText l len with
  | case1 l len n l' h ih =>
    have st := token_step l
    rw [h] at st
    have h1 := st.some _ rfl
    simp only at h1
    have := ih (by rw [← hn]; exact st.next) (by rw [st.src]; omega)
    rw [st.src] at this
    have hv := st.verbatim
    simp only at hv
    rw [hv] at this
    refine ⟨this.1, this.2.1, this.2.2.1, by omega, by omega⟩
  | case2 l len t l' hne h =>
    have st := token_step l
    rw [h] at st
    cases t with
    | none =>
      have h1 := st.none rfl
      simp only at h1
      refine ⟨st.src, st.verbatim, ⟨by simp [Lexer.nextLen], ?_, by simp⟩, Nat.le_refl _, ?_⟩
      · have := st.src; simp only at this; simp only [this]; omega
      · simp only [Lexer.nextLen]; omega
    | some t =>
      have h1 := st.some _ rfl
      simp only at h1
      refine ⟨st.src, st.verbatim, ⟨?_, ?_, ?_⟩, Nat.le_refl _, ?_⟩
      · simp only [Lexer.nextLen]; omega
      · have := st.src; simp only at this; simp only [this]; omega
      · intro t' ht; simp at ht; subst ht; exact h1.1
      · simp only [Lexer.nextLen]; omega

theorem concatText_bd (l : Lexer) (len : Nat) (hn : l.next = none) (h : BdInv l) :
    BdInv (l.concatText len).2 := by
  fun_induction Lexer.concatText l len with
  | case1 l len n l' hl ih =>
    have st := token_step l
    have hb := token_bd l h.safe h.pos h.esc
    rw [hl] at st hb
    have hn' : l'.next = none := by rw [← hn]; exact st.next
    have hsrc := st.src; simp only at hsrc hb
    refine ih hn' ⟨?_, ?_, ?_, ?_⟩
    · rw [hsrc]; exact h.safe
    · rw [hsrc]; exact hb.1
    · rw [hsrc]; simpa [Lexer.nextLen, hn'] using hb.1
    · rw [hsrc]; exact hb.2
  | case2 l len t l' hne hl =>
    have st := token_step l
    have hb := token_bd l h.safe h.pos h.esc
    rw [hl] at st hb
    have hsrc := st.src; simp only at hsrc hb
    refine ⟨?_, ?_, ?_, ?_⟩
    · simp only [hsrc]; exact h.safe
    · simp only [hsrc]; exact hb.1
    · simp only [hsrc]
      cases t with
      | none => simpa [Lexer.nextLen] using hb.1
      | some t =>
        have h1 := st.some _ rfl
        simp only at h1
        simp only [Lexer.nextLen, h1.2.1]
        rw [Nat.add_sub_cancel]; exact h.pos
    · simp only [hsrc]; exact hb.2

/-- What `next` does. -/
structure NextStep (l : Lexer) (o : Option Token) (l' : Lexer) : Prop where
  src : l'.src = l.src
  verbatim : l'.verbatim = l.verbatim
  inv : LenInv l'
  some : ∀ t, o = some t → 0 < t.len ∧ l'.pos - l'.nextLen = l.pos - l.nextLen + t.len
  none : o = none → l.pos - l.nextLen = l.src.length ∧ l'.pos - l'.nextLen = l.src.length

theorem nextToken_step (l : Lexer) (h : LenInv l) (hn : l.next = none) : NextStep l l.nextToken.1 l.nextToken.2 := by
  have hnl : l.nextLen = 0 := by simp [Lexer.nextLen, hn]
  have hp := h.pos_le
  unfold Lexer.nextToken
  have st := token_step l
  split
  · rename_i n l' heq
    rw [heq] at st
    have h1 := st.some _ rfl
    simp only at h1
    have hsrc := st.src; have hnx := st.next; have hv := st.verbatim
    simp only at hsrc hnx hv
    have := concatText_step l' n (by rw [hnx, hn]) (by rw [hsrc]; omega)
    refine ⟨by rw [this.1, hsrc], by rw [this.2.1, hv], this.2.2.1, ?_, by simp⟩
    intro t ht; simp at ht; subst ht
    simp only
    refine ⟨by omega, by omega⟩
  · rename_i t l' hne heq
    rw [heq] at st
    have hsrc := st.src; have hnx := st.next; have hv := st.verbatim
    simp only at hsrc hnx hv
    have hl' : l'.nextLen = 0 := by simp [Lexer.nextLen, hnx, hn]
    refine ⟨hsrc, hv, ⟨by simp only; omega, ?_, by simp only; rw [hnx, hn]; simp⟩, ?_, ?_⟩
    · cases t with
      | none => have := st.none rfl; simp only at this ⊢; rw [hsrc]; omega
      | some t => have := st.some _ rfl; simp only at this ⊢; rw [hsrc]; omega
    · intro t' ht; simp only at ht; subst ht
      have := st.some _ rfl; simp only at this ⊢
      exact ⟨this.1, by omega⟩
    · intro ht; simp only at ht; subst ht
      have := st.none rfl; simp only at this
      simp only; omega

theorem nextTok_step (l : Lexer) (h : LenInv l) : NextStep l l.nextTok.1 l.nextTok.2 := by
  unfold Lexer.nextTok
  split
  · rename_i t ht
    have h1 := h.next_pos t ht
    have h2 := h.next_le
    have h3 := h.pos_le
    have hnl : l.nextLen = t.len := by simp [Lexer.nextLen, ht]
    refine ⟨rfl, rfl, ⟨by simp [Lexer.nextLen], h3, by simp⟩, ?_, by simp⟩
    intro t' ht'; simp at ht'; subst ht'
    refine ⟨h1, ?_⟩
    simp only [Lexer.nextLen] at *
    omega
  · rename_i hn
    exact nextToken_step l h hn

theorem nextToken_bd (l : Lexer) (hn : l.next = none) (h : BdInv l) : BdInv l.nextToken.2 := by
  unfold Lexer.nextToken
  have st := token_step l
  have hb := token_bd l h.safe h.pos h.esc
  split
  · rename_i n l' heq
    rw [heq] at st hb
    have hsrc := st.src; have hnx := st.next
    simp only at hsrc hnx hb
    have hn' : l'.next = none := by rw [hnx, hn]
    refine concatText_bd l' n hn' ⟨?_, ?_, ?_, ?_⟩
    · rw [hsrc]; exact h.safe
    · rw [hsrc]; exact hb.1
    · rw [hsrc]; simpa [Lexer.nextLen, hn'] using hb.1
    · rw [hsrc]; exact hb.2
  · rename_i t l' hne heq
    rw [heq] at st hb
    have hsrc := st.src; have hnx := st.next
    simp only at hsrc hnx hb
    have hn' : l'.next = none := by rw [hnx, hn]
    refine ⟨?_, ?_, ?_, ?_⟩
    · simp only [hsrc]; exact h.safe
    · simp only [hsrc]; exact hb.1
    · simp only [hsrc]; simpa [Lexer.nextLen, hn'] using hb.1
    · simp only [hsrc]; exact hb.2

theorem nextTok_bd (l : Lexer) (h : BdInv l) : BdInv l.nextTok.2 := by
  unfold Lexer.nextTok
  split
  · exact ⟨h.safe, h.pos, by simpa [Lexer.nextLen] using h.pos, h.esc⟩
  · rename_i hn; exact nextToken_bd l hn h

/-- What `peek` does: nothing is yielded. -/
structure PeekStep (l : Lexer) (o : Option Token) (l' : Lexer) : Prop where
  src : l'.src = l.src
  verbatim : l'.verbatim = l.verbatim
  inv : LenInv l'
  at_ : l'.pos - l'.nextLen = l.pos - l.nextLen
  next : l'.next = o
  none : o = none → l.pos - l.nextLen = l.src.length

theorem peek_step (l : Lexer) (h : LenInv l) : PeekStep l l.peek.1 l.peek.2 := by
  unfold Lexer.peek
  split
  · rename_i t ht
    exact ⟨rfl, rfl, h, rfl, ht, by simp⟩
  · rename_i hn
    have hnl : l.nextLen = 0 := by simp [Lexer.nextLen, hn]
    have st := token_step l
    have hp := h.pos_le
    generalize l.token = x at *
    obtain ⟨t, l'⟩ := x
    have hsrc := st.src; have hnx := st.next; have hv := st.verbatim
    simp only at hsrc hnx hv
    cases t with
    | none =>
      have := st.none rfl; simp only at this
      refine ⟨hsrc, hv, ⟨by simp [Lexer.nextLen], by simp only [hsrc]; omega, by simp⟩, ?_, rfl, fun _ => by omega⟩
      simp only [Lexer.nextLen] at *; omega
    | some t =>
      have := st.some _ rfl; simp only at this
      refine ⟨hsrc, hv, ⟨?_, by simp only [hsrc]; omega, ?_⟩, ?_, rfl, by simp⟩
      · simp only [Lexer.nextLen]; omega
      · intro t' ht; simp at ht; subst ht; exact this.1
      · simp only [Lexer.nextLen, hn] at *; omega

theorem peek_bd (l : Lexer) (h : BdInv l) : BdInv l.peek.2 := by
  unfold Lexer.peek
  split
  · exact h
  · rename_i hn
    have st := token_step l
    have hb := token_bd l h.safe h.pos h.esc
    generalize l.token = x at *
    obtain ⟨t, l'⟩ := x
    have hsrc := st.src
    simp only at hsrc hb
    refine ⟨?_, ?_, ?_, ?_⟩
    · simp only [hsrc]; exact h.safe
    · simp only [hsrc]; exact hb.1
    · simp only [hsrc]
      cases t with
      | none => simpa [Lexer.nextLen] using hb.1
      | some t =>
        have := st.some _ rfl; simp only at this
        simp only [Lexer.nextLen, this.2.1]
        rw [Nat.add_sub_cancel]; exact h.pos
    · simp only [hsrc]; exact hb.2

end Jotdown.Lex
