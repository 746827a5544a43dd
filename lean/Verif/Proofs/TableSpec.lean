import Verif.Proofs.Table
import Verif.Spec.Table
namespace Jotdown.Block
open Jotdown

/-! ## Separator cells -/

theorem isSeparator_eq (s : Bytes) : isSeparatorCell s = isSeparator s := by
  rcases s with _ | ⟨a, _ | ⟨b, _ | ⟨c, r⟩⟩⟩
  · rfl
  · unfold isSeparatorCell isSeparator
    by_cases h : a = c! ':'
    · subst h; decide
    · simp [h]
  · unfold isSeparatorCell isSeparator
    by_cases h : a = c! ':' <;> by_cases h2 : b = c! ':' <;> by_cases h3 : a = c! '-' <;> by_cases h4 : b = c! '-' <;>
      simp_all [beq_eq_false_iff_ne.2]
  · rcases List.eq_nil_or_concat (c :: r) with h0 | ⟨init, z, h0⟩
    · simp at h0
    · rw [h0, List.concat_eq_append]
      have hm : isSeparatorCell (a :: b :: (init ++ [z])) = ((a == c! '-' || a == c! ':') && (z == c! '-' || z == c! ':') && (b :: init).all (· == c! '-')) := by
        have : b :: (init ++ [z]) = (b :: init) ++ [z] := rfl
        unfold isSeparatorCell
        split
        · rename_i heq; simp at heq
        · rename_i heq; simp at heq
        · rename_i heq; simp at heq
        · rename_i a' rest heq
          simp only [List.cons.injEq] at heq
          obtain ⟨rfl, rfl⟩ := heq
          rw [this, List.getLast?_append, List.dropLast_concat]
          rfl
      rw [hm]
      unfold isSeparator
      have e1 : ∀ x : UInt8, (x :: b :: (init ++ [z])) = (x :: b :: init) ++ [z] := fun _ => rfl
      have e2 : (b :: (init ++ [z])) = (b :: init) ++ [z] := rfl
      by_cases h : a = c! ':'
      · subst h
        simp only [List.head?_cons, List.drop_one, List.tail_cons, ↓reduceIte]
        rw [e2, List.getLast?_append, List.dropLast_concat]
        simp only [List.getLast?_singleton, Option.some_or, Option.some.injEq]
        by_cases hz : z = c! ':'
        · simp [hz]
        · have hz' : (z == c! ':') = false := by simpa using hz
          cases hh : (z == c! '-') <;> cases hb : (b == c! '-') <;> simp [hz, hz', hh, hb]
      · simp only [List.head?_cons, Option.some.injEq, if_neg h]
        rw [e1, List.getLast?_append, List.dropLast_concat]
        simp only [List.getLast?_singleton, Option.some_or, Option.some.injEq]
        by_cases hz : z = c! ':'
        · have h' : (a == c! ':') = false := by simpa using h
          simp [hz, h']
        · have hz' : (z == c! ':') = false := by simpa using hz
          have h' : (a == c! ':') = false := by simpa using h
          cases hh : (z == c! '-') <;> cases hb : (b == c! '-') <;> simp [hz, hz', h', hh, hb]

theorem cellAlignment_eq {s : Bytes} (h : s ≠ []) : cellAlignment s = .ok (separatorAlignment s) := by
  rcases List.eq_nil_or_concat s with h0 | ⟨init, z, h0⟩
  · exact absurd h0 h
  · rw [List.concat_eq_append] at h0
    subst h0
    cases init with
    | nil => simp [cellAlignment, separatorAlignment, idx, csub, Bind.bind, Except.bind, pure, Except.pure]; rfl
    | cons a init =>
      simp [cellAlignment, separatorAlignment, idx, csub, Bind.bind, Except.bind, pure, Except.pure, List.getLast?_cons]
      rfl

/-! ## Splitting of rows -/

theorem splitRow_skip {a r : Bytes} {pos cs : Nat} {v : Option Nat} :
    splitRow a.length pos cs v (a ++ r) = splitRow 0 (pos + a.length) cs v r := by
  induction a generalizing pos with
  | nil => rfl
  | cons x a ih =>
    rw [List.length_cons, List.cons_append, splitRow]
    rw [ih]; congr 1; omega

/-- Bytes without meaning for the splitting of rows. -/
def plainByte (c : UInt8) : Bool := c != c! '`' && c != c! '|' && c != c! '\\'

theorem splitRow_plain {a r : Bytes} {pos cs : Nat} {v : Option Nat} (h : ∀ c ∈ a, plainByte c = true) :
    splitRow 0 pos cs v (a ++ r) = splitRow 0 (pos + a.length) cs v r := by
  induction a generalizing pos with
  | nil => rfl
  | cons x a ih =>
    have hx := h x (by simp)
    simp [plainByte] at hx
    rw [List.cons_append, splitRow]
    simp only [hx.1.1, hx.1.2, hx.2, ↓reduceIte, decide_false, Bool.false_and, Bool.false_eq_true]
    have := ih (pos := pos + 1) (fun c hc => h c (by simp [hc]))
    rw [this, List.length_cons]
    split <;> (congr 1; omega)

/-- The effect of a token on the splitting of the row. -/
def tokEffect (t : Lex.Token) (e' : Bool) (pos cs : Nat) (v : Option Nat) (after : Bytes) : List Span × Bool :=
  let skip := if e' then 1 else 0
  if t.kind = .seq .backtick then
    splitRow skip (pos + t.len) cs (match v with
      | none => some t.len
      | some n => if t.len = n then none else v) after
  else if t.kind = .sym .pipe ∧ v = none then
    (⟨cs, pos⟩ :: (splitRow skip (pos + t.len) (pos + t.len) v after).1, (splitRow skip (pos + t.len) (pos + t.len) v after).2)
  else splitRow skip (pos + t.len) cs v after

theorem plain_openText (d : Lex.Delimiter) : ∀ c ∈ d.openText, plainByte c = true := by cases d <;> decide
theorem plain_closeText (d : Lex.Delimiter) : ∀ c ∈ d.closeText, plainByte c = true := by cases d <;> decide
theorem plain_symText (y : Lex.Symbol) (h : y ≠ .pipe) : ∀ c ∈ y.text, plainByte c = true := by cases y <;> first | decide | exact absurd rfl h

theorem notSpecial_plain (c : UInt8) (h : Lex.isSpecial c = false) : plainByte c = true := by
  revert c; apply ofFin; decide +kernel

theorem splitRow_take {rest : Bytes} {n pos cs : Nat} {v : Option Nat} (hn : n ≤ rest.length) (h : ∀ c ∈ rest.take n, plainByte c = true) :
    splitRow 0 pos cs v rest = splitRow 0 (pos + n) cs v (rest.drop n) := by
  have := splitRow_plain (r := rest.drop n) (pos := pos) (cs := cs) (v := v) h
  rw [List.take_append_drop, List.length_take, Nat.min_eq_left hn] at this
  exact this

theorem tokEffect_other {t : Lex.Token} {e' : Bool} {pos cs : Nat} {v : Option Nat} {after : Bytes}
    (h1 : t.kind ≠ .seq .backtick) (h2 : t.kind ≠ .sym .pipe) :
    tokEffect t e' pos cs v after = splitRow (if e' then 1 else 0) (pos + t.len) cs v after := by
  unfold tokEffect
  simp [h1, h2]

/-- Special tokens that are plain text for rows. -/
def RowTok (c : UInt8) (r : Bytes) (k : (Lex.Kind × Nat) × Bool) : Prop :=
  k.1.1 ≠ .seq .backtick ∧ k.1.1 ≠ .sym .pipe ∧ k.2 = false ∧ ∀ b ∈ (c :: r).take k.1.2, plainByte b = true

theorem rowTok_brace {c : UInt8} {r : Bytes} {k : Lex.Kind} {d : Lex.Delimiter} (hc : plainByte c = true)
    (hk : k ≠ .seq .backtick ∧ k ≠ .sym .pipe) : RowTok c r (Lex.maybeCloseBrace r k d, false) := by
  unfold Lex.maybeCloseBrace RowTok
  cases r with
  | nil => simpa [hk] using hc
  | cons x r =>
    simp only [List.head?_cons, Option.some.injEq]
    split
    · rename_i hx; subst hx
      simpa [plainByte] using hc
    · simpa [hk] using hc

theorem special_plain {vb : Bool} {c : UInt8} {r : Bytes} (hc : plainByte c = true) : RowTok c r (Lex.specialTok vb c r) := by
  have h1 : c ≠ c! '`' := by intro h; subst h; simp [plainByte] at hc
  have h2 : c ≠ c! '|' := by intro h; subst h; simp [plainByte] at hc
  have h3 : c ≠ c! '\\' := by intro h; subst h; simp [plainByte] at hc
  have one : ∀ k : Lex.Kind, k ≠ .seq .backtick ∧ k ≠ .sym .pipe → RowTok c r ((k, 1), false) := by
    intro k hk
    exact ⟨hk.1, hk.2, rfl, by simpa using hc⟩
  unfold Lex.specialTok
  rw [if_neg h3, if_neg h2, if_neg h1]
  repeat' (refine Lex.ite_intro (P := RowTok c r) (fun h => ?_) (fun h => ?_))
  all_goals first
    | exact one _ (by simp)
    | exact rowTok_brace hc (by simp)
    | skip
  · subst h
    have := Lex.braceTok_text r
    have hk : (Lex.braceTok r).1 ≠ .seq .backtick ∧ (Lex.braceTok r).1 ≠ .sym .pipe := by
      unfold Lex.braceTok; split <;> simp
    refine ⟨hk.1, hk.2, rfl, ?_⟩
    unfold Lex.braceTok at this ⊢
    split <;> rename_i hd
    · rw [hd] at this
      simp only [Lex.TextOf] at this
      simp only
      rw [this]; exact plain_openText _
    · rw [hd] at this
      simp only [Lex.TextOf] at this
      simp only
      rw [this]; exact plain_openText _
  · rename_i hcc
    subst hcc
    cases r with
    | nil => simp at h
    | cons x r => simp at h; subst h; exact ⟨by simp, by simp, rfl, by simp [plainByte]⟩
  · rename_i hcc
    subst hcc
    refine ⟨by simp, by simp, rfl, ?_⟩
    rw [Nat.add_comm, List.take_succ_cons, Lex.hyphens_text]
    intro b hb
    rcases List.mem_cons.1 hb with rfl | hb
    · decide
    · rw [List.eq_of_mem_replicate hb]; decide
  · rename_i hcc
    subst hcc
    cases r with
    | nil => simp at h
    | cons x r => simp at h; subst h; exact ⟨by simp, by simp, rfl, by simp [plainByte]⟩
  · subst h
    refine ⟨by simp, by simp, rfl, ?_⟩
    rw [Nat.add_comm, List.take_succ_cons, Lex.countWhile_text]
    intro b hb
    rcases List.mem_cons.1 hb with rfl | hb
    · decide
    · rw [List.eq_of_mem_replicate hb]; decide

theorem tok_split {e : Bool} {v : Option Nat} {rest : Bytes} {t : Lex.Token} {e' : Bool} {pos cs : Nat}
    (he : e = true → v = none) (h : Lex.tokenAt e v.isSome rest = (some t, e')) :
    splitRow (if e then 1 else 0) pos cs v rest = tokEffect t e' pos cs v (rest.drop t.len) ∧ (e' = true → v = none) := by
  have hlen := Lex.tokenAt_len _ _ _ _ _ h
  unfold Lex.tokenAt at h
  cases e with
  | true =>
    have hv := he rfl
    subst hv
    simp only [↓reduceIte] at h ⊢
    cases rest with
    | nil => simp at h
    | cons c r =>
      simp only [Prod.mk.injEq, Option.some.injEq] at h
      obtain ⟨rfl, rfl⟩ := h
      refine ⟨?_, by simp⟩
      simp only at hlen ⊢
      have h1 : (Lex.escapedTok c r).1 ≠ .seq .backtick ∧ (Lex.escapedTok c r).1 ≠ .sym .pipe := by
        unfold Lex.escapedTok
        repeat' split
        all_goals simp
      rw [tokEffect_other h1.1 h1.2]
      simp only [Bool.false_eq_true, ↓reduceIte]
      rw [splitRow]
      -- the rest of the token is plain
      have h2 : ∀ b ∈ r.take ((Lex.escapedTok c r).2 - 1), plainByte b = true := by
        unfold Lex.escapedTok
        split
        · simp
        · split
          · rename_i hh
            obtain ⟨-, hh⟩ := hh
            simp only
            have hr := List.takeWhile_append_dropWhile (p := fun c => c == c! ' ' || c == c! '\t') (l := r)
            have hall := List.all_takeWhile (p := fun c => c == c! ' ' || c == c! '\t') (l := r)
            generalize hd : r.dropWhile (fun c => c == c! ' ' || c == c! '\t') = d at *
            unfold Lex.countWhile
            cases d with
            | nil => simp at hh
            | cons x d =>
              simp at hh; subst hh
              have e1 : 1 + (r.takeWhile (fun c => c == c! ' ' || c == c! '\t')).length + 1 - 1 = (r.takeWhile (fun c => c == c! ' ' || c == c! '\t')).length + 1 := by omega
              rw [e1]
              generalize r.takeWhile (fun c => c == c! ' ' || c == c! '\t') = w at *
              rw [← hr, List.take_append, List.take_of_length_le (by omega)]
              simp only [show w.length + 1 - w.length = 1 by omega, List.take_succ_cons, List.take_zero]
              intro b hb
              rcases List.mem_append.1 hb with hb | hb
              · have := List.all_eq_true.1 hall b hb
                simp at this
                rcases this with rfl | rfl <;> decide
              · simp at hb; subst hb; decide
          · split <;> simp
      have h3 : 1 ≤ (Lex.escapedTok c r).2 := hlen.1
      obtain ⟨m, hm⟩ : ∃ m, (Lex.escapedTok c r).2 = m + 1 := ⟨_, (Nat.sub_add_cancel h3).symm⟩
      rw [hm] at h2 hlen ⊢
      simp only [Nat.add_sub_cancel] at h2
      rw [splitRow_take (n := m) (by simp at hlen; omega) h2, List.drop_succ_cons]
      congr 1; omega
  | false =>
    simp only [Bool.false_eq_true, ↓reduceIte] at h ⊢
    split at h
    · simp only [Prod.mk.injEq, Option.some.injEq] at h
      obtain ⟨rfl, rfl⟩ := h
      refine ⟨?_, by simp⟩
      simp only at hlen ⊢
      rw [tokEffect_other (by simp) (by simp)]
      simp only [Bool.false_eq_true, ↓reduceIte]
      refine splitRow_take hlen.2 ?_
      intro b hb
      unfold Lex.countWhile at hb
      rw [show rest.take (rest.takeWhile (fun c => !Lex.isSpecial c)).length = rest.takeWhile (fun c => !Lex.isSpecial c) from ?_] at hb
      · have := List.all_eq_true.1 (List.all_takeWhile (p := fun c => !Lex.isSpecial c) (l := rest)) b hb
        exact notSpecial_plain b (by simpa using this)
      · conv => lhs; arg 2; rw [← List.takeWhile_append_dropWhile (p := fun c => !Lex.isSpecial c) (l := rest)]
        rw [List.take_left]
    · cases rest with
      | nil => simp at h
      | cons c r =>
        simp only [Prod.mk.injEq, Option.some.injEq] at h
        by_cases hp : plainByte c = true
        · have hs := special_plain (vb := v.isSome) (r := r) hp
          obtain ⟨rfl, rfl⟩ := h
          obtain ⟨h1, h2, h3, h4⟩ := hs
          rw [h3]
          refine ⟨?_, by simp⟩
          rw [tokEffect_other h1 h2]
          simp only [Bool.false_eq_true, ↓reduceIte]
          exact splitRow_take hlen.2 h4
        · have hcc : c = c! '`' ∨ c = c! '|' ∨ c = c! '\\' := by
            simp only [plainByte, Bool.and_eq_true, bne_iff_ne, ne_eq, not_and, Decidable.not_not] at hp
            by_cases h1 : c = c! '`'
            · exact Or.inl h1
            · by_cases h2 : c = c! '|'
              · exact Or.inr (Or.inl h2)
              · exact Or.inr (Or.inr (hp ⟨h1, h2⟩))
          rcases hcc with rfl | rfl | rfl
          · have hs : Lex.specialTok v.isSome (c! '`') r = ((.seq .backtick, 1 + Lex.countWhile (· == c! '`') r), false) := rfl
            rw [hs] at h
            obtain ⟨rfl, rfl⟩ := h
            refine ⟨?_, by simp⟩
            unfold tokEffect
            simp only [↓reduceIte, Bool.false_eq_true]
            rw [splitRow]
            simp only [↓reduceIte]
            have hsk : ∀ v', splitRow (r.takeWhile (· == c! '`')).length (pos + 1) cs v' r = splitRow 0 (pos + 1 + (r.takeWhile (· == c! '`')).length) cs v' (r.dropWhile (· == c! '`')) := by
              intro v'
              have := splitRow_skip (a := r.takeWhile (· == c! '`')) (r := r.dropWhile (· == c! '`')) (pos := pos + 1) (cs := cs) (v := v')
              rw [List.takeWhile_append_dropWhile] at this
              exact this
            rw [hsk]
            have hd : (c! '`' :: r).drop (1 + Lex.countWhile (· == c! '`') r) = r.dropWhile (· == c! '`') := by
              rw [Nat.add_comm, List.drop_succ_cons, Lex.countWhile_drop]
            rw [hd]
            unfold Lex.countWhile
            rw [Nat.add_comm 1]
            congr 1; omega
          · have hs : Lex.specialTok v.isSome (c! '|') r = ((.sym .pipe, 1), false) := rfl
            rw [hs] at h
            obtain ⟨rfl, rfl⟩ := h
            refine ⟨?_, by simp⟩
            unfold tokEffect
            rw [splitRow]
            cases v <;> simp
          · have hs : Lex.specialTok v.isSome (c! '\\') r = Lex.backslashTok v.isSome r := rfl
            rw [hs] at h
            unfold Lex.backslashTok at h
            rw [splitRow]
            cases r with
            | nil =>
              obtain ⟨rfl, rfl⟩ := h
              refine ⟨?_, by simp⟩
              rw [tokEffect_other (by simp) (by simp)]
              cases v <;> simp
            | cons d r =>
              simp only at h
              by_cases hd : (isWs d || isPunct d) = true
              · rw [if_pos hd] at h
                obtain ⟨rfl, rfl⟩ := h
                rw [tokEffect_other (by simp) (by simp)]
                cases v with
                | none => simp [hd]
                | some n => simp
              · rw [if_neg hd] at h
                obtain ⟨rfl, rfl⟩ := h
                rw [tokEffect_other (by simp) (by simp)]
                cases v with
                | none => simp [hd]
                | some n => simp

/-! ## The lexer -/

theorem special_esc (vb : Bool) (c : UInt8) (r : Bytes) (h : (Lex.specialTok vb c r).2 = true) :
    (Lex.specialTok vb c r).1.1 = .escape := by
  revert h
  unfold Lex.specialTok
  repeat' (refine Lex.ite_intro (P := fun x : (Lex.Kind × Nat) × Bool => x.2 = true → x.1.1 = .escape) (fun h => ?_) (fun h => ?_))
  all_goals first
    | (simp; done)
    | skip
  · unfold Lex.backslashTok
    split
    · simp
    · split <;> simp

theorem tokenAt_esc {e vb : Bool} {rest : Bytes} {t : Lex.Token} (h : Lex.tokenAt e vb rest = (some t, true)) : t.kind = .escape := by
  unfold Lex.tokenAt at h
  split at h
  · split at h <;> simp at h
  · split at h
    · simp at h
    · split at h
      · simp at h
      · rename_i c r _ _
        simp only [Prod.mk.injEq, Option.some.injEq] at h
        obtain ⟨rfl, h2⟩ := h
        exact special_esc _ _ _ h2

structure LexRow (lex : Lex.Lexer) (v : Option Nat) : Prop where
  verb : lex.verbatim = v.isSome
  esc : lex.escape = true → v = none
  next : ∀ t, lex.next = some t → Lex.tokenAt false v.isSome (lex.src.drop (lex.pos - t.len)) = (some t, lex.escape) ∧ t.len ≤ lex.pos

/-- The splitting of what is left of the row. -/
def splitOf (lex : Lex.Lexer) (v : Option Nat) (pos cs : Nat) : List Span × Bool :=
  match lex.next with
  | none => splitRow (if lex.escape then 1 else 0) pos cs v lex.rest
  | some t => tokEffect t lex.escape pos cs v lex.rest

theorem token_split {lex : Lex.Lexer} {v : Option Nat} (h : LexRow lex v) {t : Lex.Token} {lex' : Lex.Lexer}
    (ht : lex.token = (some t, lex')) (pos cs : Nat) :
    splitRow (if lex.escape then 1 else 0) pos cs v lex.rest = tokEffect t lex'.escape pos cs v lex'.rest ∧
      lex'.verbatim = v.isSome ∧ (lex'.escape = true → v = none) ∧ lex'.next = lex.next ∧ lex'.src = lex.src ∧ lex'.pos = lex.pos + t.len ∧
      Lex.tokenAt lex.escape v.isSome lex.rest = (some t, lex'.escape) := by
  unfold Lex.Lexer.token at ht
  rw [h.verb] at ht
  split at ht
  · simp at ht
  · rename_i t' e' heq
    simp only [Prod.mk.injEq, Option.some.injEq] at ht
    obtain ⟨rfl, rfl⟩ := ht
    have := tok_split (pos := pos) (cs := cs) h.esc heq
    refine ⟨?_, rfl, this.2, rfl, rfl, rfl, heq⟩
    rw [this.1]
    simp [Lex.Lexer.rest, List.drop_drop]

theorem splitRow_nil (sk pos cs : Nat) (v : Option Nat) : splitRow sk pos cs v [] = ([], v.isSome) := rfl

theorem token_none_rest {lex lex' : Lex.Lexer} (h : lex.token = (none, lex')) : lex.rest = [] ∧ lex' = { lex with escape := false } := by
  unfold Lex.Lexer.token at h
  split at h
  · rename_i e' heq
    have h1 := Lex.tokenAt_none _ _ _ _ heq
    simp only [Prod.mk.injEq, true_and] at h
    rw [← h, h1.2]
    exact ⟨h1.1, rfl⟩
  · simp at h

theorem concat_split {v : Option Nat} (l : Lex.Lexer) (len : Nat) (h : LexRow l v) (hn : l.next = none) (he : l.escape = false)
    (pos cs : Nat) : splitRow 0 pos cs v l.rest = splitOf (l.concatText len).2 v (pos + ((l.concatText len).1 - len)) cs ∧
      LexRow (l.concatText len).2 v ∧ len ≤ (l.concatText len).1 := by
  induction l, len using Lex.Lexer.concatText.induct generalizing pos with
  | case1 l len n l' ht ih =>
    have h1 := token_split h ht pos cs
    rw [he] at h1
    simp only [Bool.false_eq_true, ↓reduceIte] at h1
    obtain ⟨h1, h2, h3, h4, h5, h6, h7⟩ := h1
    have he' : l'.escape = false := by
      cases hh : l'.escape with
      | false => rfl
      | true =>
        rw [hh] at h7
        have := tokenAt_esc h7
        simp at this
    have hl' : LexRow l' v := ⟨h2, h3, by intro t h; rw [h4, hn] at h; simp at h⟩
    rw [Lex.Lexer.concatText]
    rw [ht]
    simp only
    have := ih hl' (by rw [h4, hn]) he' (pos + n)
    obtain ⟨g1, g2, g3⟩ := this
    refine ⟨?_, g2, by omega⟩
    rw [h1, tokEffect_other (by simp) (by simp), he']
    simp only [Bool.false_eq_true, ↓reduceIte]
    rw [g1]; congr 1; omega
  | case2 l len t l' hne ht =>
    rw [Lex.Lexer.concatText]
    split
    · rename_i n l'' heq
      rw [ht] at heq
      simp only [Prod.mk.injEq] at heq
      exact absurd heq.1 (by intro hh; exact hne n hh)
    · rename_i t2 l2 heq hne2
      rw [ht] at hne2
      simp only [Prod.mk.injEq] at hne2
      obtain ⟨rfl, rfl⟩ := hne2
      simp only [Nat.sub_self, Nat.add_zero, Nat.le_refl, and_true]
      cases t with
      | none =>
        have h1 := token_none_rest ht
        rw [h1.1, h1.2]
        refine ⟨?_, ⟨h.verb, by simp, by simp⟩⟩
        simp only [splitOf]
        have : Lex.Lexer.rest { l with escape := false, next := none } = [] := by
          have := h1.1; unfold Lex.Lexer.rest at this ⊢; exact this
        rw [this]; rfl
      | some t =>
        have h1 := token_split h ht pos cs
        rw [he] at h1
        simp only [Bool.false_eq_true, ↓reduceIte] at h1
        obtain ⟨h1, h2, h3, h4, h5, h6, h7⟩ := h1
        refine ⟨by rw [h1]; rfl, ⟨h2, h3, ?_⟩⟩
        intro t' ht'
        simp only [Option.some.injEq] at ht'
        subst ht'
        simp only
        rw [h6, h5]
        refine ⟨?_, by omega⟩
        rw [show l.pos + t.len - t.len = l.pos by omega]
        exact h7

theorem next_split {v : Option Nat} {lex lex' : Lex.Lexer} {o : Option Lex.Token} (h : LexRow lex v) (hn : lex.nextTok = (o, lex')) (pos cs : Nat) :
    match (generalizing := false) o with
    | none => splitOf lex v pos cs = ([], v.isSome)
    | some t => if t.kind = .text then splitOf lex v pos cs = splitOf lex' v (pos + t.len) cs ∧ LexRow lex' v
        else lex'.next = none ∧ splitOf lex v pos cs = tokEffect t lex'.escape pos cs v lex'.rest ∧ lex'.verbatim = v.isSome ∧
          (lex'.escape = true → t.kind = .escape ∧ v = none) := by
  unfold Lex.Lexer.nextTok at hn
  cases hnx : lex.next with
  | some t =>
    rw [hnx] at hn
    simp only [Prod.mk.injEq] at hn
    obtain ⟨rfl, rfl⟩ := hn
    simp only
    obtain ⟨h1, h2⟩ := h.next t hnx
    unfold splitOf
    rw [hnx]
    simp only
    split
    · rename_i hk
      refine ⟨?_, h.verb, h.esc, by simp⟩
      rw [tokEffect_other (by rw [hk]; simp) (by rw [hk]; simp)]
      rfl
    · refine ⟨trivial, rfl, h.verb, ?_⟩
      intro he
      rw [he] at h1
      exact ⟨tokenAt_esc h1, h.esc he⟩
  | none =>
    rw [hnx] at hn
    simp only [Lex.Lexer.nextToken] at hn
    unfold splitOf
    rw [hnx]
    simp only
    split at hn
    · rename_i n l1 ht
      obtain ⟨h1, h2, h3, h4, h5, h6, h7⟩ := token_split h ht pos cs
      have he' : l1.escape = false := by
        cases hh : l1.escape with
        | false => rfl
        | true =>
          rw [hh] at h7
          have := tokenAt_esc h7
          simp at this
      have hl1 : LexRow l1 v := ⟨h2, h3, by intro t h; rw [h4, hnx] at h; simp at h⟩
      obtain ⟨g1, g2, g3⟩ := concat_split l1 n hl1 (by rw [h4, hnx]) he' (pos + n) cs
      simp only [Prod.mk.injEq] at hn
      obtain ⟨rfl, rfl⟩ := hn
      simp only [↓reduceIte]
      refine ⟨?_, g2⟩
      rw [h1, tokEffect_other (by simp) (by simp), he']
      simp only [Bool.false_eq_true, ↓reduceIte]
      rw [g1]
      unfold splitOf
      rw [show pos + n + ((l1.concatText n).1 - n) = pos + (l1.concatText n).1 by omega]
    · rename_i t l1 hne ht
      simp only [Prod.mk.injEq] at hn
      obtain ⟨rfl, rfl⟩ := hn
      cases t with
      | none =>
        have h1 := token_none_rest ht
        simp only [h1.1, splitRow_nil]
      | some t =>
        obtain ⟨h1, h2, h3, h4, h5, h6, h7⟩ := token_split h ht pos cs
        simp only
        have hk : t.kind ≠ .text := by
          intro hk
          obtain ⟨k, n⟩ := t
          simp only at hk
          subst hk
          exact hne n rfl
        rw [if_neg hk]
        refine ⟨by rw [h4, hnx], h1, h2, ?_⟩
        intro he
        refine ⟨?_, h3 he⟩
        rw [he] at h7
        exact tokenAt_esc h7

/-! ## Rows -/

theorem strSlice_eq {s r : Bytes} {a b : Nat} (h : strSlice s a b = .ok r) : r = textAt s ⟨a, b⟩ ∧ a ≤ b ∧ b ≤ s.length := by
  unfold strSlice at h
  split at h
  · rename_i hh
    simp only [Except.ok.injEq] at h
    exact ⟨h.symm, hh.1, hh.2.1⟩
  · simp at h

theorem textAt_length {s : Bytes} {sp : Span} (h : sp.stop ≤ s.length) : (textAt s sp).length = sp.stop - sp.start := by
  unfold textAt; simp; omega

theorem textAt_drop (s : Bytes) (a b n : Nat) : textAt s ⟨a + n, b⟩ = (textAt s ⟨a, b⟩).drop n := by
  unfold textAt
  simp only
  rw [List.drop_take, List.drop_drop]
  congr 1; omega

theorem trimStart_drop (s : Bytes) : trimStart s = s.drop (leadingWs s) := (countWhile_dropWhile isWs s).symm

theorem trim_eq {p : TP} {sp r : Span} (h : p.trim sp = .ok r) : r = trimRange p.src sp ∧ sp.start ≤ sp.stop ∧ sp.stop ≤ p.src.length := by
  unfold TP.trim at h
  obtain ⟨sp1, h1, h⟩ := bind_ok h
  unfold TP.trimStart at h1
  obtain ⟨s1, hs1, h1⟩ := bind_ok h1
  cases h1
  obtain ⟨rfl, ha, hb⟩ := strSlice_eq hs1
  unfold TP.trimEnd at h
  obtain ⟨s2, hs2, h⟩ := bind_ok h
  cases h
  obtain ⟨rfl, -, -⟩ := strSlice_eq hs2
  refine ⟨?_, ha, hb⟩
  unfold trimRange Jotdown.trim
  simp only [textAt_drop, trimStart_drop, leadingWs, Lex.countWhile]

theorem textAt_trimRange {s : Bytes} {sp : Span} (h1 : sp.start ≤ sp.stop) (h2 : sp.stop ≤ s.length) :
    textAt s (trimRange s sp) = Jotdown.trim (textAt s sp) := by
  unfold trimRange
  simp only
  have hd : Jotdown.trimStart (textAt s sp) = textAt s ⟨sp.start + ((textAt s sp).takeWhile isWs).length, sp.stop⟩ := by
    rw [textAt_drop, trimStart_drop]; rfl
  unfold Jotdown.trim
  rw [hd]
  conv => rhs; rw [trimEnd_take]
  have hl := trimEnd_length_le (textAt s ⟨sp.start + ((textAt s sp).takeWhile isWs).length, sp.stop⟩)
  have hl2 : (textAt s ⟨sp.start + ((textAt s sp).takeWhile isWs).length, sp.stop⟩).length ≤ sp.stop - (sp.start + ((textAt s sp).takeWhile isWs).length) := by
    unfold textAt; simp; omega
  generalize hn : (Jotdown.trimEnd (textAt s ⟨sp.start + ((textAt s sp).takeWhile isWs).length, sp.stop⟩)).length = n at *
  generalize sp.start + ((textAt s sp).takeWhile isWs).length = a at *
  unfold textAt
  simp only
  rw [List.take_take]
  congr 1; omega

/-- All cells are separators. -/
def allSep (src : Bytes) (cells : List Span) : Bool := cells.all (fun c => isSeparator (Jotdown.trim (textAt src c)))

theorem endCell_eq {p p' : TP} {r r' : Row} {len : Nat} (h : p.endCell r len = .ok (p', r')) :
    p' = { p with events := p.events ++ cellEvents p.src p.alignments r.columnIndex [⟨r.cellStart, r.pos⟩] } ∧
    r' = { r with
      separatorRow := r.separatorRow && isSeparator (Jotdown.trim (textAt p.src ⟨r.cellStart, r.pos⟩))
      cellStart := r.pos + len
      columnIndex := r.columnIndex + 1 } := by
  unfold TP.endCell at h
  obtain ⟨sp, hsp, h⟩ := bind_ok h
  obtain ⟨rfl, h1, h2⟩ := trim_eq hsp
  obtain ⟨cell, hc, h⟩ := bind_ok h
  obtain ⟨rfl, -, -⟩ := strSlice_eq hc
  rw [textAt_trimRange h1 h2] at h
  unfold TP.inline TP.enter TP.exit TP.enterNode at h
  have hidx : ∀ a b : Event, idx (p.events ++ [a] ++ [b]) p.events.length = .ok a := by
    intro a b
    rw [List.append_assoc]
    exact idx_append _ _ _
  simp only [hidx, Bind.bind, Except.bind, pure, Except.pure, Except.ok.injEq, Prod.mk.injEq] at h
  obtain ⟨rfl, rfl⟩ := h
  refine ⟨?_, ?_⟩
  · simp [cellEvents]
  · rw [isSeparator_eq]

theorem cellEvents_append (src : Bytes) (als : List Alignment) (i : Nat) (c : Span) (cs : List Span) :
    cellEvents src als i (c :: cs) = cellEvents src als i [c] ++ cellEvents src als (i + 1) cs := by
  simp [cellEvents]

theorem rowLoop_spec {fuel : Nat} : ∀ {p p' : TP} {lex : Lex.Lexer} {r r' : Row}, LexRow lex r.verbatim → Lex.LenInv lex →
    p.rowLoop fuel lex r = .ok (p', r') →
    p' = { p with events := p.events ++ cellEvents p.src p.alignments r.columnIndex (splitOf lex r.verbatim r.pos r.cellStart).1 } ∧
    r'.separatorRow = (r.separatorRow && allSep p.src (splitOf lex r.verbatim r.pos r.cellStart).1) ∧
    r'.verbatim.isSome = (splitOf lex r.verbatim r.pos r.cellStart).2 ∧
    r'.pos + (lex.pos - lex.nextLen) = r.pos + lex.src.length := by
  induction fuel with
  | zero => intro p p' lex r r' _ _ h; simp [TP.rowLoop] at h
  | succ fuel ih =>
    intro p p' lex r r' hx hl h
    unfold TP.rowLoop at h
    have h1 := Lex.nextTok_step lex hl
    cases hn : lex.nextTok with
    | mk o lex' =>
      have hsplit := fun pos cs => next_split (v := r.verbatim) (lex := lex) hx hn pos cs
      rw [hn] at h h1
      simp only at h h1 hsplit
      cases o with
      | none =>
        simp only [Except.ok.injEq, Prod.mk.injEq] at h
        obtain ⟨rfl, rfl⟩ := h
        have := h1.none rfl
        rw [hsplit r.pos r.cellStart]
        simp [cellEvents, allSep]
        omega
      | some t =>
        obtain ⟨k, len⟩ := t
        have hst := h1.some _ rfl
        simp only at hst
        have hsp := hsplit r.pos r.cellStart
        simp only at hsp h
        have hinv : ∀ b, Lex.LenInv { lex' with verbatim := b } := fun b => ⟨h1.inv.next_le, h1.inv.pos_le, h1.inv.next_pos⟩
        have hskip : ∀ (r2 : Row), r2.pos = r.pos + len → ∀ b, { lex' with verbatim := b }.src.length + r2.pos = lex.src.length + r.pos + len ∧
            ({ lex' with verbatim := b } : Lex.Lexer).pos - ({ lex' with verbatim := b } : Lex.Lexer).nextLen = lex.pos - lex.nextLen + len := by
          intro r2 hr2 b
          simp only [hr2]
          refine ⟨by rw [h1.src]; omega, ?_⟩
          exact hst.2
        have hlexeta : ({ lex' with verbatim := lex'.verbatim } : Lex.Lexer) = lex' := rfl
        -- skipping a token that has no effect
        have plain : k ≠ .seq .backtick → (k ≠ .sym .pipe ∨ r.verbatim ≠ none) → p.rowLoop fuel lex' { r with pos := r.pos + len } = .ok (p', r') →
            p' = { p with events := p.events ++ cellEvents p.src p.alignments r.columnIndex (splitOf lex r.verbatim r.pos r.cellStart).1 } ∧
            r'.separatorRow = (r.separatorRow && allSep p.src (splitOf lex r.verbatim r.pos r.cellStart).1) ∧
            r'.verbatim.isSome = (splitOf lex r.verbatim r.pos r.cellStart).2 ∧
            r'.pos + (lex.pos - lex.nextLen) = r.pos + lex.src.length := by
          intro hk1 hk2 hr
          by_cases hk : k = .text
          · rw [if_pos hk] at hsp
            have := ih (r := { r with pos := r.pos + len }) hsp.2 h1.inv hr
            simp only at this
            rw [hsp.1]
            refine ⟨this.1, this.2.1, this.2.2.1, ?_⟩
            have h4 := this.2.2.2
            rw [h1.src] at h4
            omega
          · rw [if_neg hk] at hsp
            have hLR : LexRow lex' r.verbatim := ⟨hsp.2.2.1, fun he => (hsp.2.2.2 he).2, by rw [hsp.1]; simp⟩
            have := ih (r := { r with pos := r.pos + len }) hLR h1.inv hr
            simp only at this
            have heq : splitOf lex r.verbatim r.pos r.cellStart = splitOf lex' r.verbatim (r.pos + len) r.cellStart := by
              rw [hsp.2.1]
              unfold tokEffect splitOf
              rw [hsp.1]
              simp only [if_neg hk1]
              rw [if_neg (by intro hh; rcases hk2 with h | h; exact h hh.1; exact h hh.2)]
            rw [heq]
            refine ⟨this.1, this.2.1, this.2.2.1, ?_⟩
            have h4 := this.2.2.2
            rw [h1.src] at h4
            omega
        cases hv : r.verbatim with
        | some l =>
          rw [hv] at h
          simp only at h
          split at h
          · rename_i hk
            obtain ⟨rfl, rfl⟩ := hk
            rw [if_neg (by simp)] at hsp
            have he : lex'.escape = false := by
              cases hh : lex'.escape with
              | false => rfl
              | true => have := (hsp.2.2.2 hh).1; simp at this
            have := ih (lex := { lex' with verbatim := false }) (r := { r with verbatim := none, pos := r.pos + len })
              ⟨rfl, by intro _; rfl, by simp only; rw [hsp.1]; simp⟩ (hinv _) h
            simp only at this
            have heq : splitOf lex (some len) r.pos r.cellStart = splitOf { lex' with verbatim := false } none (r.pos + len) r.cellStart := by
              rw [hv] at hsp
              rw [hsp.2.1]
              unfold tokEffect splitOf
              simp only [hsp.1, ↓reduceIte]
              rfl
            rw [heq]
            refine ⟨this.1, this.2.1, this.2.2.1, ?_⟩
            have h4 := this.2.2.2
            have h5 : ({ lex' with verbatim := false } : Lex.Lexer).nextLen = lex'.nextLen := rfl
            rw [h5, h1.src] at h4
            omega
          · rename_i hk
            rw [hv] at plain
            by_cases hk1 : k = .seq .backtick
            · subst hk1
              have hne : len ≠ l := fun hh => hk ⟨rfl, hh⟩
              rw [if_neg (by simp)] at hsp
              have he : lex'.escape = false := by
                cases hh : lex'.escape with
                | false => rfl
                | true => have := (hsp.2.2.2 hh).1; simp at this
              rw [hv] at hsp
              have hLR : LexRow lex' (some l) := ⟨hsp.2.2.1, by rw [he]; simp, by rw [hsp.1]; simp⟩
              have := ih (r := { r with verbatim := some l, pos := r.pos + len }) hLR h1.inv h
              simp only at this
              have heq : splitOf lex (some l) r.pos r.cellStart = splitOf lex' (some l) (r.pos + len) r.cellStart := by
                rw [hsp.2.1]
                unfold tokEffect splitOf
                simp only [hsp.1, ↓reduceIte, if_neg hne]
              rw [heq]
              refine ⟨this.1, this.2.1, this.2.2.1, ?_⟩
              have h4 := this.2.2.2
              rw [h1.src] at h4
              omega
            · exact plain hk1 (Or.inr (by simp)) (by rw [← h])
        | none =>
          rw [hv] at h plain
          simp only at h
          split at h
          · rename_i hk
            subst hk
            obtain ⟨⟨q, r1⟩, hec, h⟩ := bind_ok h
            obtain ⟨rfl, rfl⟩ := endCell_eq hec
            rw [if_neg (by simp)] at hsp
            have he : lex'.escape = false := by
              cases hh : lex'.escape with
              | false => rfl
              | true => have := (hsp.2.2.2 hh).1; simp at this
            rw [hv] at hsp
            have hLR : LexRow lex' none := ⟨hsp.2.2.1, by intro _; rfl, by rw [hsp.1]; simp⟩
            have := ih (p := { p with events := p.events ++ cellEvents p.src p.alignments r.columnIndex [⟨r.cellStart, r.pos⟩] })
              (lex := lex') (r := { r with
                separatorRow := r.separatorRow && isSeparator (Jotdown.trim (textAt p.src ⟨r.cellStart, r.pos⟩))
                cellStart := r.pos + len
                columnIndex := r.columnIndex + 1
                pos := r.pos + len }) (by simp only; rw [hv]; exact hLR) h1.inv h
            simp only [hv] at this
            have heq : splitOf lex none r.pos r.cellStart = (⟨r.cellStart, r.pos⟩ :: (splitOf lex' none (r.pos + len) (r.pos + len)).1,
                (splitOf lex' none (r.pos + len) (r.pos + len)).2) := by
              rw [hsp.2.1]
              unfold tokEffect splitOf
              simp [hsp.1]
            rw [heq]
            refine ⟨?_, ?_, this.2.2.1, ?_⟩
            · rw [this.1]; conv => rhs; rw [cellEvents_append]
              simp only [List.append_assoc]
            · rw [this.2.1]; simp [allSep, Bool.and_assoc]
            · have h4 := this.2.2.2
              rw [h1.src] at h4
              omega
          · rename_i hk
            split at h
            · rename_i hk1
              subst hk1
              rw [if_neg (by simp)] at hsp
              have he : lex'.escape = false := by
                cases hh : lex'.escape with
                | false => rfl
                | true => have := (hsp.2.2.2 hh).1; simp at this
              have := ih (lex := { lex' with verbatim := true }) (r := { r with verbatim := some len, pos := r.pos + len })
                ⟨rfl, by simp [he], by simp only; rw [hsp.1]; simp⟩ (hinv _) h
              simp only at this
              have heq : splitOf lex none r.pos r.cellStart = splitOf { lex' with verbatim := true } (some len) (r.pos + len) r.cellStart := by
                rw [hv] at hsp
                rw [hsp.2.1]
                unfold tokEffect splitOf
                simp only [hsp.1, ↓reduceIte]
                rfl
              rw [heq]
              refine ⟨this.1, this.2.1, this.2.2.1, ?_⟩
              have h4 := this.2.2.2
              have h5 : ({ lex' with verbatim := true } : Lex.Lexer).nextLen = lex'.nextLen := rfl
              rw [h5, h1.src] at h4
              omega
            · rename_i hk1
              exact plain hk1 (Or.inl hk) (by rw [← h])


theorem textAt_empty {s : Bytes} {sp : Span} (h : sp.stop ≤ sp.start) : textAt s sp = [] := by
  unfold textAt
  rw [Nat.sub_eq_zero_of_le h, List.take_zero]

theorem textAt_trimRange' {s : Bytes} {sp : Span} (h : (trimRange s sp).stop ≤ s.length) : textAt s (trimRange s sp) = Jotdown.trim (textAt s sp) := by
  by_cases h1 : sp.start ≤ sp.stop
  · by_cases h2 : sp.stop ≤ s.length
    · exact textAt_trimRange h1 h2
    · have : textAt s sp = textAt s ⟨sp.start, s.length⟩ := by
        unfold textAt; simp only
        rw [List.take_of_length_le (by simp; omega), List.take_of_length_le (by simp)]
      have h3 : trimRange s sp = trimRange s ⟨sp.start, s.length⟩ := by
        unfold trimRange; rw [this]
      rw [h3, this]
      refine textAt_trimRange ?_ (Nat.le_refl _)
      unfold trimRange at h
      simp only at h ⊢
      omega
  · have : textAt s sp = [] := textAt_empty (by omega)
    rw [this]
    unfold trimRange
    rw [this]
    exact textAt_empty (by simp [Jotdown.trim, Jotdown.trimStart, Jotdown.trimEnd])

theorem alignmentsOf_eq {src : Bytes} {als0 : List Alignment} : ∀ {cells : List Span} {i : Nat} {als : List Alignment},
    alignmentsOf src (cellEvents src als0 i cells) = .ok als → allSep src cells = true →
    als = cells.map (fun c => separatorAlignment (Jotdown.trim (textAt src c)))
  | [], _, als, h, _ => by simp [cellEvents, alignmentsOf] at h; simp [h]
  | c :: cs, i, als, h, hs => by
    simp only [allSep, List.all_cons, Bool.and_eq_true] at hs
    simp only [cellEvents, alignmentsOf, reduceCtorEq, ↓reduceIte] at h
    obtain ⟨cell, hc, h⟩ := bind_ok h
    obtain ⟨a, ha, h⟩ := bind_ok h
    obtain ⟨as, has, h⟩ := bind_ok h
    cases h
    obtain ⟨rfl, -, hb⟩ := strSlice_eq hc
    have hcell : textAt src ⟨(trimRange src c).start, (trimRange src c).stop⟩ = Jotdown.trim (textAt src c) := textAt_trimRange' hb
    rw [hcell] at ha
    rw [cellAlignment_eq (by intro hh; rw [hh] at hs; simp [isSeparator] at hs)] at ha
    cases ha
    rw [alignmentsOf_eq has hs.2]
    rfl

theorem realign_cellEvents {src : Bytes} {als0 als : List Alignment} {h : Bool} {sp : Span} : ∀ (cells : List Span) (i : Nat),
    realign als (2 * i) (cellEvents src als0 i cells ++ [⟨.exit (.container (.tableRow h)), sp⟩]) =
      cellEvents src als i cells ++ [⟨.exit (.container (.tableRow h)), sp⟩]
  | [], i => by simp [cellEvents, realign]
  | c :: cs, i => by
    have := realign_cellEvents (src := src) (als0 := als0) (als := als) (h := h) (sp := sp) cs (i + 1)
    have h1 : (2 * i + 1) / 2 = i := by omega
    have h2 : 2 * i / 2 = i := by omega
    have h3 : 2 * (i + 1) = 2 * i + 1 + 1 := by omega
    rw [h3] at this
    simp only [cellEvents, List.cons_append, realign, h1, h2, this]

theorem cellEvents_length (src : Bytes) (als : List Alignment) : ∀ (cells : List Span) (i : Nat), (cellEvents src als i cells).length = 3 * cells.length
  | [], _ => rfl
  | _ :: cs, i => by simp only [cellEvents, List.length_cons, cellEvents_length src als cs (i + 1)]; omega

theorem setHeadRow_eq {p p' : TP} {E : List Event} {r : TableRow} {head : Bool} {a : List Alignment}
    (he : p.events = E ++ rowEvents p.src head a r)
    (h : p.setHeadRow E.length (E.length + 1 + 3 * r.cells.length) = .ok p') :
    p' = { p with events := E ++ rowEvents p.src true p.alignments r } := by
  unfold TP.setHeadRow at h
  rw [he] at h
  have h1 : (E ++ rowEvents p.src head a r).take (E.length + 1) = E ++ [⟨.enter (.container (.tableRow head)), ⟨r.range.start, r.range.start + 1⟩⟩] := by
    rw [List.take_append, List.take_of_length_le (by omega)]
    simp [rowEvents]
  have h2 : (E ++ rowEvents p.src head a r).drop (E.length + 1) = cellEvents p.src a 0 r.cells ++ [⟨.exit (.container (.tableRow head)), ⟨r.range.stop, r.range.stop⟩⟩] := by
    rw [List.drop_append, List.drop_eq_nil_of_le (by omega)]
    simp [rowEvents]
  have h3 := realign_cellEvents (src := p.src) (als0 := a) (als := p.alignments) (h := head) (sp := ⟨r.range.stop, r.range.stop⟩) r.cells 0
  simp only [h1, h2, Nat.mul_zero] at h h3
  rw [h3] at h
  rw [List.append_assoc] at h
  simp only [List.singleton_append, idx_append, Bind.bind, Except.bind] at h
  have h4 : (E ++ ((⟨.enter (.container (.tableRow head)), ⟨r.range.start, r.range.start + 1⟩⟩ : Event) :: (cellEvents p.src p.alignments 0 r.cells ++
      [(⟨.exit (.container (.tableRow head)), ⟨r.range.stop, r.range.stop⟩⟩ : Event)]))).set E.length ⟨.enter (.container (.tableRow true)), ⟨r.range.start, r.range.start + 1⟩⟩
      = (E ++ ⟨.enter (.container (.tableRow true)), ⟨r.range.start, r.range.start + 1⟩⟩ :: cellEvents p.src p.alignments 0 r.cells) ++
      [⟨.exit (.container (.tableRow head)), ⟨r.range.stop, r.range.stop⟩⟩] := by
    rw [List.set_append_right _ _ (Nat.le_refl _)]
    simp
  rw [h4] at h
  have h5 : E.length + 1 + 3 * r.cells.length = (E ++ (⟨.enter (.container (.tableRow true)), ⟨r.range.start, r.range.start + 1⟩⟩ : Event) :: cellEvents p.src p.alignments 0 r.cells).length := by
    simp [cellEvents_length]; omega
  rw [h5, idx_append] at h
  simp only [pure, Except.pure, Except.ok.injEq] at h
  rw [← h, List.set_append_right _ _ (Nat.le_refl _)]
  simp [rowEvents]

/-- The events of the last row. -/
def prevEvents (src : Bytes) : Option (TableRow × Bool × List Alignment) → List Event
  | some (r, head, a) => rowEvents src head a r
  | none => []

theorem exit_top {p p' : TP} {sp : Span} {n : Node} {i : Nat} {rest : List Nat} (h : p.exit sp = .ok p')
    (ho : p.open_ = i :: rest) (hn : ∃ s, p.events[i]? = some ⟨.enter n, s⟩) : p' = { p with
      events := p.events ++ [⟨.exit n, sp⟩]
      open_ := rest } := by
  obtain ⟨s, hs⟩ := hn
  unfold TP.exit at h
  rw [ho] at h
  simp only at h
  obtain ⟨n', hn', h⟩ := bind_ok h
  cases h
  simp [TP.enterNode, idx, hs, Bind.bind, Except.bind, pure, Except.pure] at hn'
  subst hn'
  rfl

theorem byteSlice_eq {s r : Bytes} {a b : Nat} (h : byteSlice s a b = .ok r) : r = textAt s ⟨a, b⟩ ∧ a ≤ b ∧ b ≤ s.length := by
  unfold byteSlice at h
  split at h
  · rename_i hab
    cases h
    exact ⟨rfl, hab⟩
  · simp at h

theorem lexRow_new (s : Bytes) (pos cs : Nat) : LexRow (Lex.Lexer.new s) none ∧ splitOf (Lex.Lexer.new s) none pos cs = splitRow 0 pos cs none s := by
  refine ⟨⟨rfl, by simp, by simp [Lex.Lexer.new]⟩, ?_⟩
  simp [splitOf, Lex.Lexer.new, Lex.Lexer.rest]

theorem parseRow_eq {p p' : TP} {E : List Event} {line : Span} {prev : Option (TableRow × Bool × List Alignment)} {last last' : Option (Nat × Nat)}
    (he : p.events = E ++ prevEvents p.src prev) (hl : last = prev.map (fun x => (E.length, E.length + 1 + 3 * x.1.cells.length)))
    (h1 : line.start ≤ line.stop) (h2 : line.stop ≤ p.src.length)
    (h : p.parseRow (trimRange p.src line) last = .ok (p', last')) :
    let row := rowOf p.src line
    ∃ (E' : List Event) (prev' : Option (TableRow × Bool × List Alignment)) (als' : List Alignment), p' = { p with
        alignments := als'
        events := E' ++ prevEvents p.src prev' } ∧
      last' = prev'.map (fun x => (E'.length, E'.length + 1 + 3 * x.1.cells.length)) ∧
      if row.isSeparatorRow p.src then E' = E ∧ als' = row.alignments p.src ∧ prev' = prev.map (fun x => (x.1, true, row.alignments p.src))
      else E' = E ++ prevEvents p.src prev ∧ als' = p.alignments ∧ prev' = some (row, false, p.alignments) := by
  intro row
  have hrr : row.range = trimRange p.src line := rfl
  unfold TP.parseRow at h
  simp only [] at h
  obtain ⟨rem, hrem, h⟩ := bind_ok h
  obtain ⟨hremeq, hr1, hr2⟩ := byteSlice_eq hrem
  subst hremeq
  replace h := bind_ok h
  obtain ⟨⟨q, r⟩, hq, h⟩ := h
  have hrem2 : textAt p.src ⟨(trimRange p.src line).start + 1, (trimRange p.src line).stop⟩ = (textAt p.src (trimRange p.src line)).drop 1 := textAt_drop _ _ _ _
  have hsrc : (p.enter (.container (.tableRow false)) ⟨(trimRange p.src line).start, (trimRange p.src line).start + 1⟩).src = p.src := rfl
  simp only [hsrc] at hq hr1 hr2 hrem
  obtain ⟨hx, hsplit⟩ := lexRow_new (textAt p.src ⟨(trimRange p.src line).start + 1, (trimRange p.src line).stop⟩) ((trimRange p.src line).start + 1) ((trimRange p.src line).start + 1)
  have hs := rowLoop_spec (r := { pos := (trimRange p.src line).start + 1, cellStart := (trimRange p.src line).start + 1 }) hx (Lex.LenInv.new _) hq
  simp only [hsplit] at hs
  rw [hrem2] at hs
  change _ = _ ∧ _ = (true && allSep p.src row.cells) ∧ _ = row.unclosed ∧ _ at hs
  obtain ⟨s1, s2, s3, s4⟩ := hs
  change q = { p with
    open_ := p.events.length :: p.open_
    events := (p.events ++ [⟨.enter (.container (.tableRow false)), ⟨row.range.start, row.range.start + 1⟩⟩]) ++ cellEvents p.src p.alignments 0 row.cells } at s1
  have s4' : r.pos = row.range.stop := by
    have hlen := textAt_length (s := p.src) (sp := ⟨(trimRange p.src line).start + 1, (trimRange p.src line).stop⟩) hr2
    rw [hrem2] at hlen
    rw [hrr]
    have : (Lex.Lexer.new ((textAt p.src (trimRange p.src line)).drop 1)).src = (textAt p.src (trimRange p.src line)).drop 1 := rfl
    rw [this, hlen] at s4
    have : (Lex.Lexer.new ((textAt p.src (trimRange p.src line)).drop 1)).pos = 0 := rfl
    simp only at s4 hr1
    omega
  have hsep : (r.separatorRow && r.verbatim.isNone) = row.isSeparatorRow p.src := by
    unfold TableRow.isSeparatorRow
    rw [s2, ← s3]
    unfold allSep
    cases r.verbatim <;> simp
  rw [hsep] at h
  have hdrop : q.events.drop ((p.events.length) + 1) = cellEvents p.src p.alignments 0 row.cells := by
    rw [s1]; simp
  have htake : q.events.take (p.events.length) = p.events := by
    rw [s1]; simp
  have hqs : q.src = p.src := by rw [s1]
  split at h
  · rename_i hc
    simp only [if_pos hc]
    obtain ⟨als, hals, h⟩ := bind_ok h
    simp only [hdrop, hqs] at hals
    have hall : allSep p.src row.cells = true := by
      unfold TableRow.isSeparatorRow at hc
      simp only [Bool.and_eq_true] at hc
      exact hc.2
    have hals := alignmentsOf_eq hals hall
    change als = row.alignments p.src at hals
    subst hals
    simp only [htake] at h
    cases prev with
    | none =>
      simp only [Option.map] at hl
      subst hl
      simp only [pure, Except.pure, Except.ok.injEq, Prod.mk.injEq] at h
      obtain ⟨rfl, rfl⟩ := h
      refine ⟨E, none, row.alignments p.src, ?_, rfl, rfl, rfl, rfl⟩
      rw [s1]
      simp only [he, List.drop_succ_cons, List.drop_zero]
    | some x =>
      obtain ⟨pr, hd, a⟩ := x
      simp only [Option.map] at hl
      subst hl
      simp only at h
      obtain ⟨p2, hp2, h⟩ := bind_ok h
      simp only [pure, Except.pure, Except.ok.injEq, Prod.mk.injEq] at h
      obtain ⟨rfl, rfl⟩ := h
      have := setHeadRow_eq (E := E) (r := pr) (head := hd) (a := a) (by simp only [he, hqs]; rfl) hp2
      refine ⟨E, some (pr, true, row.alignments p.src), row.alignments p.src, ?_, rfl, rfl, rfl, rfl⟩
      rw [this, s1]
      simp [prevEvents]
  · rename_i hc
    simp only [if_neg hc]
    obtain ⟨p2, hp2, h⟩ := bind_ok h
    simp only [pure, Except.pure, Except.ok.injEq, Prod.mk.injEq] at h
    obtain ⟨rfl, rfl⟩ := h
    have := exit_top (n := .container (.tableRow false)) (i := p.events.length) (rest := p.open_) hp2 (by rw [s1])
      ⟨⟨row.range.start, row.range.start + 1⟩, by rw [s1]; simp⟩
    refine ⟨E ++ prevEvents p.src prev, some (row, false, p.alignments), p.alignments, ?_, ?_, rfl, rfl, rfl⟩
    · rw [this, s1, s4', he]
      simp [prevEvents, rowEvents]
    · rw [s1, he]
      simp [cellEvents_length]; omega

/-- The line has only whitespace. -/
theorem trimRange_isEmpty (src : Bytes) (sp : Span) : (trimRange src sp).isEmpty = (Jotdown.trim (textAt src sp)).isEmpty := by
  unfold trimRange Span.isEmpty
  cases Jotdown.trim (textAt src sp) <;> simp

theorem parseRows_eq : ∀ {ls : List Span} {p p' : TP} {E : List Event} {prev : Option (TableRow × Bool × List Alignment)} {last : Option (Nat × Nat)},
    p.events = E ++ prevEvents p.src prev → last = prev.map (fun x => (E.length, E.length + 1 + 3 * x.1.cells.length)) →
    p.parseRows last ls = .ok p' →
    ∃ als, p' = { p with
      alignments := als
      events := E ++ tableEvents p.src p.alignments prev ((ls.takeWhile (fun l => !(Jotdown.trim (textAt p.src l)).isEmpty)).map (rowOf p.src)) }
  | [], p, p', E, prev, last, he, hl, h => by
    simp only [TP.parseRows, Except.ok.injEq] at h
    subst h
    refine ⟨p.alignments, ?_⟩
    cases prev with
    | none => simp [tableEvents, prevEvents] at he ⊢; rw [← he]
    | some x => 
      simp only [tableEvents, List.takeWhile_nil, List.map_nil]
      simp only [prevEvents] at he
      rw [← he]
  | l :: ls, p, p', E, prev, last, he, hl, h => by
    simp only [TP.parseRows] at h
    obtain ⟨row, hrow, h⟩ := bind_ok h
    obtain ⟨rfl, h1, h2⟩ := trim_eq hrow
    rw [trimRange_isEmpty] at h
    split at h
    · rename_i hemp
      cases h
      refine ⟨p.alignments, ?_⟩
      rw [List.takeWhile_cons_of_neg (by simp [hemp])]
      cases prev with
      | none => simp [tableEvents, prevEvents] at he ⊢; rw [← he]
      | some x => 
        simp only [tableEvents, List.map_nil]
        simp only [prevEvents] at he
        rw [← he]
    · rename_i hne
      obtain ⟨⟨p1, last1⟩, hp1, h⟩ := bind_ok h
      obtain ⟨E', prev', als', rfl, rfl, hif⟩ := parseRow_eq he hl h1 h2 hp1
      simp only at h
      obtain ⟨als, hals⟩ := parseRows_eq (E := E') (prev := prev') (by rfl) rfl h
      refine ⟨als, ?_⟩
      rw [hals]
      simp only
      rw [List.takeWhile_cons_of_pos (by simp [hne]), List.map_cons]
      simp only [tableEvents]
      split at hif
      · rename_i hc
        obtain ⟨rfl, rfl, rfl⟩ := hif
        rw [if_pos hc]
      · rename_i hc
        obtain ⟨rfl, rfl, rfl⟩ := hif
        rw [if_neg hc, ← List.append_assoc]
        rfl

end Jotdown.Block
