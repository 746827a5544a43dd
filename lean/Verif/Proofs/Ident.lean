import Verif.Proofs.Numbers
import Verif.Props.Attr
/-! # Helper lemmas: identification of blocks -/
namespace Jotdown.Block
open Jotdown

theorem Safe.bd_after {s : Bytes} (h : Safe s) {n : Nat} {c : UInt8} (hn : s[n]? = some c) (hc : c < 128) :
    Bd (s.drop (n + 1)) := by
  have : s.drop n = c :: s.drop (n + 1) := by
    rw [List.drop_eq_getElem?_toList_append, hn]; simp
  have h2 := h.drop n
  rw [this] at h2
  exact h2.1 hc

theorem Safe.bd_append {a b : Bytes} {c : UInt8} (h : Safe (a ++ b)) (ha : a.getLast? = some c) (hc : c < 128) : Bd b := by
  have hl : a ≠ [] := by intro h0; subst h0; simp at ha
  rcases List.eq_nil_or_concat a with h0 | ⟨l, d, rfl⟩
  · exact absurd h0 hl
  · rw [List.concat_eq_append] at ha h
    simp at ha; subst ha
    rw [List.append_assoc] at h
    exact h.of_append.1 hc

theorem dropWhile_drop (p : UInt8 → Bool) (s : Bytes) : s.dropWhile p = s.drop (s.length - (s.dropWhile p).length) := by
  have h := List.takeWhile_append_dropWhile (p := p) (l := s)
  have hl : (s.takeWhile p).length + (s.dropWhile p).length = s.length := by
    rw [← List.length_append, h]
  have : s.length - (s.dropWhile p).length = (s.takeWhile p).length := by omega
  rw [this]
  generalize s.takeWhile p = a at *
  generalize s.dropWhile p = b at *
  subst h
  rw [List.drop_left]

theorem dropWhile_bd {p : UInt8 → Bool} {s : Bytes} (hp : ∀ c, p c = true → c < 128) (hb : Bd s) (hs : Safe s) :
    Bd (s.dropWhile p) ∧ Safe (s.dropWhile p) := by
  refine ⟨?_, by rw [dropWhile_drop]; exact hs.drop _⟩
  have h := List.takeWhile_append_dropWhile (p := p) (l := s)
  cases ht : s.takeWhile p with
  | nil => rw [ht, List.nil_append] at h; rw [h]; exact hb
  | cons c t =>
    rw [← h] at hs
    obtain ⟨d, hd⟩ : ∃ d, (s.takeWhile p).getLast? = some d := by
      rw [ht, List.getLast?_cons]; exact ⟨_, rfl⟩
    refine Safe.bd_append hs hd ?_
    have hm := List.mem_of_getLast? hd
    exact hp d (List.all_eq_true.1 List.all_takeWhile d hm)

theorem findByte_some {c : UInt8} {s : Bytes} {n : Nat} (h : findByte c s = some n) :
    s[n]? = some c ∧ ∀ i, i < n → s[i]? ≠ some c := by
  induction s generalizing n with
  | nil => simp [findByte] at h
  | cons d s ih =>
    unfold findByte at h
    split at h
    · rename_i hd
      simp at h; subst h; simp [hd]
    · rename_i hd
      cases hf : findByte c s with
      | none => simp [hf] at h
      | some m =>
        rw [hf] at h; simp at h; subst h
        obtain ⟨h1, h2⟩ := ih hf
        refine ⟨by simpa using h1, fun i hi => ?_⟩
        cases i with
        | zero => simpa using hd
        | succ i => simpa using h2 i (by omega)

theorem countWhile_lt_get {p : UInt8 → Bool} {s : Bytes} {i : Nat} (h : i < Lex.countWhile p s) :
    ∃ c, s[i]? = some c ∧ p c = true := by
  unfold Lex.countWhile at h
  have hp := List.takeWhile_prefix (l := s) p
  have hg : (s.takeWhile p)[i]? = some ((s.takeWhile p)[i]) := List.getElem?_eq_getElem h
  refine ⟨(s.takeWhile p)[i], ?_, List.all_eq_true.1 List.all_takeWhile _ (List.getElem_mem h)⟩
  rw [← hg]
  obtain ⟨t, ht⟩ := hp
  conv => lhs; rw [← ht]
  rw [List.getElem?_append_left h]

theorem countWhile_bd {p : UInt8 → Bool} {s : Bytes} (hp : ∀ c, p c = true → c < 128) (hb : Bd s) (hs : Safe s) :
    Bd (s.drop (Lex.countWhile p s)) := by
  cases hn : Lex.countWhile p s with
  | zero => simpa using hb
  | succ n =>
    obtain ⟨c, hc, hpc⟩ := countWhile_lt_get (p := p) (s := s) (i := n) (by omega)
    exact Safe.bd_after hs hc (hp c hpc)

/-- Facts about an identified block that do not depend on the indentation: `line` is the line
without indentation. -/
def KindOk (indent : Nat) (line : Bytes) (k : Kind) (span : Span) : Prop :=
  match k with
  | .atom .attributes => span = ⟨indent, indent + line.length⟩ ∧
      Attr.valid line = .ok (trimEnd line).length ∧ line.head? = some (c! '{')
  | .atom _ => span.start = indent
  | .paragraph => span = ⟨indent, indent⟩
  | .heading level => 1 ≤ level ∧ span = ⟨indent, indent + level⟩ ∧ level = Lex.countWhile (· == c! '#') line ∧
      noneOrWs (line.drop level) = true
  | .fenced i fl fk spec closing nested => i = indent ∧ 3 ≤ fl ∧ closing = false ∧ nested = none ∧
      span = ⟨indent, indent + line.length⟩ ∧ (fk = .div → spec.all Attr.isName = true)
  | .definition i _ _ lb => i = indent ∧ lb = false ∧ span.start = 0 ∧ indent + 3 ≤ span.stop
  | .blockquote => span = ⟨indent, indent + 1⟩
  | .listItem i ty lb => i = indent ∧ lb = false ∧ span.start = indent ∧ indent < span.stop ∧
      (∀ b, ty = .task b → span.stop = indent + 5) ∧
      (∀ b, ty = .task b ∨ ty = .unordered b → b = c! '-' ∨ b = c! '*' ∨ b = c! '+') ∧
      (∀ num style, ty = .ordered num style → ∃ n rest, line = Numbers.marker style n ++ rest ∧
        span.stop = indent + (Numbers.marker style n).length ∧ n ≠ [] ∧
        (∀ c ∈ n, Numbers.IsDigitOf num.numbering c) ∧
        (num.value : Int) = Numbers.numeralValue num.numbering n ∧ num.value < 10 ^ 19) ∧
      (ty = .description → span.stop = indent + 1 ∧ line.head? = some (c! ':'))
  | .table c b => c = false ∧ b = false ∧ span = ⟨indent, indent⟩ ∧ line.head? = some (c! '|')

structure IdentOk (indent : Nat) (line : Bytes) (k : Kind) (span : Span) : Prop where
  le : span.start ≤ span.stop
  len : span.stop ≤ indent + line.length
  bd : indent ≤ span.stop → Bd (line.drop (span.stop - indent))
  ge : indent ≤ span.stop
  start : span.start = 0 ∨ span.start = indent
  kind : KindOk indent line k span

theorem drop_length_sub (n : Nat) (l : Bytes) : Bd (l.drop (n + l.length - n)) := by
  rw [Nat.add_sub_cancel_left, List.drop_length]; simp

theorem isThematic_ok : True := trivial

/-- Optional result of an arm. -/
def OptOk (indent : Nat) (line : Bytes) (r : Option (Kind × Span)) : Prop :=
  ∀ k sp, r = some (k, sp) → IdentOk indent line k sp

theorem optOk_none {indent : Nat} {line : Bytes} : OptOk indent line none := by
  intro _ _ h; simp at h

theorem optOk_some {indent : Nat} {line : Bytes} {k : Kind} {sp : Span} (h : IdentOk indent line k sp) :
    OptOk indent line (some (k, sp)) := by
  intro _ _ h'; simp at h'; obtain ⟨rfl, rfl⟩ := h'; exact h

theorem identDefinition_ok (indent : Nat) (chars : Bytes) (hs : Safe (c! '[' :: chars)) :
    Sat Never (identDefinition indent chars) (OptOk indent (c! '[' :: chars)) := by
  unfold identDefinition
  cases hf : findByte (c! ']') chars with
  | none => exact Sat.ok optOk_none
  | some l =>
    simp only
    obtain ⟨h1, -⟩ := findByte_some hf
    have hl : l < chars.length := by
      rw [List.getElem?_eq_some_iff] at h1; exact h1.1
    have hb1 : Bd (chars.drop (l + 1)) := Safe.bd_after hs.2 h1 (by decide)
    rw [strSlice_ok (by omega) (by omega) hb1 (by simp)]
    simp only [Bind.bind, Except.bind]
    rw [List.take_of_length_le (by simp)]
    split
    · rename_i hc
      have hl2 : l + 1 < chars.length := by
        cases hd : chars.drop (l + 1) with
        | nil => rw [hd] at hc; simp at hc
        | cons _ _ => 
          have := congrArg List.length hd
          simp at this; omega
      have h2 : chars[l + 1]? = some (c! ':') := by
        rw [← List.head?_drop]; exact hc
      have hb0 : Bd chars := hs.1 (by decide)
      have hbl : Bd (chars.drop l) := by
        have : chars.drop l = c! ']' :: chars.drop (l + 1) := by
          rw [List.drop_eq_getElem?_toList_append, h1]; simp
        rw [this]; simp; decide
      rw [strSlice_ok (by omega) (by omega) (by simpa using hb0) hbl]
      simp only [List.drop_zero, Nat.sub_zero]
      have hlab : strSlice (chars.take l) (if (chars.take l).head? == some (c! '^') then 1 else 0) (chars.take l).length
          = .ok ((chars.take l).drop (if (chars.take l).head? == some (c! '^') then 1 else 0)) := by
        have hlen : (if (chars.take l).head? == some (c! '^') then 1 else 0) ≤ (chars.take l).length := by
          split
          · rename_i hh
            cases hx : chars.take l with
            | nil => rw [hx] at hh; simp at hh
            | cons _ _ => simp
          · omega
        rw [strSlice_ok hlen (by omega) ?_ (by rw [List.drop_length]; simp), List.take_of_length_le (by simp)]
        split
        · rename_i hh
          cases hx : chars.take l with
          | nil => simp
          | cons a t =>
            rw [hx] at hh
            simp at hh
            have := hs.2.take l
            rw [hx] at this
            have := this.1 (by rw [hh]; decide)
            simpa using this
        · simpa using hb0.take l
      rw [hlab]
      refine Sat.ok (optOk_some ⟨by simp, by simp; omega, fun _ => ?_, by simp; omega, Or.inl rfl, ?_⟩)
      · have : indent + 3 + l - indent = (l + 1) + 1 + 1 := by omega
        simp only [this]
        rw [List.drop_succ_cons]
        exact Safe.bd_after hs.2 h2 (by decide)
      · exact ⟨rfl, rfl, rfl, by simp⟩
    · exact Sat.ok optOk_none

theorem isTask_length {s : Bytes} (h : isTask s = true) : 3 ≤ s.length ∧ s[2]? = some (c! ']') := by
  unfold isTask at h
  split at h
  · simp at h; simp [h.1.2]
  · simp at h

theorem identBullet_ok (indent : Nat) (b : UInt8) (chars : Bytes) (hb : b < 128)
    (hbb : b = c! '-' ∨ b = c! '*' ∨ b = c! '+') (hs : Safe (b :: chars)) :
    OptOk indent (b :: chars) (identBullet indent b chars) := by
  unfold identBullet
  have hbd : Bd chars := hs.1 hb
  refine Lex.ite_intro (fun _ => ?_) (fun _ => ?_)
  · refine Lex.ite_intro (fun ht => ?_) (fun _ => ?_)
    · skip
      obtain ⟨h1, h2⟩ := isTask_length ht
      simp at h1 h2
      have h2' : chars[3]? = some (c! ']') := by
        have : (chars.drop 1)[2]? = chars[1 + 2]? := List.getElem?_drop
        simpa using h2
      refine optOk_some ⟨by simp, by simp; omega, fun _ => ?_, by simp, Or.inr rfl, ?_⟩
      · have : indent + 5 - indent = 3 + 1 + 1 := by omega
        simp only [this]
        rw [List.drop_succ_cons]
        exact Safe.bd_after hs.2 h2' (by decide)
      · refine ⟨rfl, rfl, rfl, by simp, by simp, by simpa using hbb, by simp, by simp⟩
    · refine optOk_some ⟨by simp, by simp, fun _ => by simpa using hbd, by simp, Or.inr rfl, ?_⟩
      refine ⟨rfl, rfl, rfl, by simp, by simp, by simpa using hbb, by simp, by simp⟩
  · exact optOk_none

theorem all_takeWhile_eq (p : UInt8 → Bool) (s : Bytes) : (s.takeWhile p).all p = true := List.all_takeWhile

/-- The fence is not trimmed away. -/
theorem countWhile_le_trimEnd {f : UInt8} {line : Bytes} (hf : isWs f = false) :
    Lex.countWhile (· == f) line ≤ (trimEnd line).length := by
  obtain ⟨w, hw, hws⟩ := trimEnd_spec line
  by_cases h : Lex.countWhile (· == f) line ≤ (trimEnd line).length
  · exact h
  · exfalso
    obtain ⟨c, hc, hpc⟩ := countWhile_lt_get (p := (· == f)) (s := line) (i := (trimEnd line).length) (by omega)
    rw [hw] at hc
    rw [List.getElem?_append_right (by simp [← hw])] at hc
    have hmem := List.mem_of_getElem? hc
    have := hws c hmem
    simp at hpc
    rw [hpc, hf] at this
    exact absurd this (by simp)

theorem identFence_ok (indent : Nat) (f : UInt8) (chars : Bytes) (hf : f < 128) (hfw : isWs f = false)
    (hs : Safe (f :: chars)) :
    Sat Never (identFence indent f (f :: chars) (trimEnd (f :: chars)) chars) (OptOk indent (f :: chars)) := by
  unfold identFence
  have hcw : 1 + Lex.countWhile (· == f) chars = Lex.countWhile (· == f) (f :: chars) := by
    simp [Lex.countWhile, List.takeWhile_cons]; omega
  have hle := countWhile_le_trimEnd (f := f) (line := f :: chars) hfw
  simp only [hcw]
  have hbt := trimEnd_bd_safe (s := f :: chars) (by simpa using not_isCont_of_lt hf) hs
  have hbd : Bd ((trimEnd (f :: chars)).drop (Lex.countWhile (· == f) (f :: chars))) := by
    have hb := countWhile_bd (p := (· == f)) (s := f :: chars) (by intro c hc; simp at hc; rw [hc]; exact hf)
      (by simpa using not_isCont_of_lt hf) hs
    rw [trimEnd_take, List.drop_take]
    exact hb.take _
  rw [strSlice_ok hle (by omega) hbd (by simp)]
  simp only [Bind.bind, Except.bind]
  refine Lex.ite_intro (P := fun x => Sat Never x _) (fun hv => ?_) (fun _ => ?_)
  · simp only [Bool.and_eq_true, decide_eq_true_eq] at hv
    refine Sat.ok (optOk_some ⟨by simp, by simp, fun _ => ?_, by simp, Or.inr rfl, ?_⟩)
    · exact drop_length_sub _ _
    · refine ⟨rfl, hv.2, rfl, rfl, rfl, fun hk => ?_⟩
      have h1 := hv.1
      by_cases hfc : f = c! ':'
      · rwa [if_pos hfc] at h1
      · rw [if_neg hfc] at hk; exact absurd hk (by simp)
  · exact Sat.ok optOk_none

theorem noWs_of_bullet (first : UInt8) (h : first = c! '-' ∨ first = c! '*' ∨ first = c! '+') : first < 128 := by
  rcases h with h | h | h <;> subst h <;> decide

theorem valid_ok (s : Bytes) : ∃ n, Attr.valid s = .ok n := by
  obtain ⟨st', k, hk, -⟩ := Attr.validLoop_eq .start 0 s (by simp) (by simp)
  unfold Attr.valid
  rw [hk]
  exact ⟨_, rfl⟩

theorem identMatch_ok (indent : Nat) (first : UInt8) (chars : Bytes)
    (hb : Bd (first :: chars)) (hs : Safe (first :: chars)) :
    Sat Never (identMatch indent (first :: chars) (trimEnd (first :: chars)) first chars)
      (OptOk indent (first :: chars)) := by
  have hbc : first < 128 → Bd chars := hs.1
  unfold identMatch
  split
  · rename_i h; subst h
    exact Sat.ok (optOk_some ⟨by simp, by simp, fun _ => by simpa using hbc (by decide), by simp, Or.inr rfl, rfl⟩)
  split
  · rename_i h; subst h
    refine Sat.ok ?_
    split
    · rename_i hw
      have hcw : Lex.countWhile (· == c! '#') (c! '#' :: chars) = 1 + Lex.countWhile (· == c! '#') chars := by
        simp [Lex.countWhile, List.takeWhile_cons]; omega
      refine optOk_some ⟨by simp, by have := Lex.countWhile_le (· == c! '#') (c! '#' :: chars); simp at this ⊢; omega,
        fun _ => ?_, by simp, Or.inr rfl, ?_⟩
      · simp only [Nat.add_sub_cancel_left]
        exact countWhile_bd (by intro c hc; simp at hc; rw [hc]; decide) hb hs
      · refine ⟨by omega, rfl, rfl, ?_⟩
        rw [hcw, Nat.add_comm, List.drop_succ_cons]
        have hd : chars.drop (Lex.countWhile (· == c! '#') chars) = chars.dropWhile (· == c! '#') := by
          have h := List.takeWhile_append_dropWhile (p := (· == c! '#')) (l := chars)
          conv => lhs; arg 2; rw [← h]
          unfold Lex.countWhile
          rw [List.drop_left]
        rw [hd]; exact hw
    · exact optOk_none
  split
  · rename_i h; subst h
    refine Sat.ok ?_
    split
    · exact optOk_some ⟨by simp, by simp, fun _ => by simpa using hbc (by decide), by simp, Or.inr rfl, rfl⟩
    · exact optOk_none
  split
  · rename_i h; subst h
    obtain ⟨v, hv⟩ := valid_ok (c! '{' :: chars)
    simp only [hv, Bind.bind, Except.bind]
    refine Sat.ok ?_
    split
    · rename_i hvl
      exact optOk_some ⟨by simp, by simp, fun _ => drop_length_sub _ _, by simp, Or.inr rfl, rfl,
        by rw [hv, hvl], rfl⟩
    · exact optOk_none
  split
  · rename_i h; subst h
    refine Sat.ok ?_
    split
    · exact optOk_some ⟨by simp, by simp, fun _ => by simpa using hb, by simp, Or.inr rfl, ⟨rfl, rfl, rfl, rfl⟩⟩
    · exact optOk_none
  split
  · rename_i h; subst h
    exact identDefinition_ok indent chars hs
  split
  · rename_i h
    refine Sat.ok (optOk_some ⟨by simp, ?_, fun _ => ?_, by simp, Or.inr rfl, rfl⟩)
    · have := trimEnd_length_le (first :: chars); simp only [List.length_cons] at this ⊢; omega
    · simp only [Nat.add_sub_cancel_left]
      obtain ⟨w, hw, hws⟩ := trimEnd_spec (first :: chars)
      conv => arg 1; arg 2; rw [hw]
      rw [List.drop_left]
      cases w with
      | nil => simp
      | cons c w => exact Bd_of_lt (isWs_lt (hws c (by simp)))
  split
  · rename_i h
    exact Sat.ok (identBullet_ok indent first chars (noWs_of_bullet first h) h hs)
  split
  · rename_i h
    obtain ⟨rfl, -⟩ := h
    exact Sat.ok (optOk_some ⟨by simp, by simp, fun _ => by simpa using hbc (by decide), by simp, Or.inr rfl,
      ⟨rfl, rfl, rfl, by simp, by simp, by simp, by simp, by simp⟩⟩)
  split
  · rename_i h
    have : first < 128 ∧ isWs first = false := by
      rcases h with h | h | h <;> subst h <;> decide
    exact identFence_ok indent first chars this.1 this.2 hs
  · refine Sat.bind (Numbers.maybeOrderedListItem_ok _ (by simp) hs) ?_
    intro r hr
    refine Sat.ok ?_
    cases r with
    | none => exact optOk_none
    | some r =>
      obtain ⟨num, style, len⟩ := r
      obtain ⟨n, rest, h1, h2, h3, h4, h5, h6, h7⟩ := hr num style len rfl
      refine optOk_some ⟨by simp, ?_, fun _ => ?_, by simp, Or.inr rfl, ?_⟩
      · rw [h1, h2]; simp
      · simp only [Nat.add_sub_cancel_left]
        rw [h1, h2, List.drop_left]
        rw [h1] at hs
        obtain ⟨m, hm⟩ : ∃ c, (Numbers.marker style n).getLast? = some c ∧ c < 128 := by
          cases style
          · exact ⟨c! '.', by simp [Numbers.marker], by decide⟩
          · exact ⟨c! ')', by simp [Numbers.marker], by decide⟩
          · exact ⟨c! ')', by simp [Numbers.marker, List.getLast?_cons], by decide⟩
        exact Safe.bd_append hs hm.1 hm.2
      · refine ⟨rfl, rfl, rfl, ?_, by simp, by simp, ?_, by simp⟩
        · rw [h2]; cases style <;> simp [Numbers.marker] <;> omega
        · intro num' style' he
          simp at he
          obtain ⟨rfl, rfl⟩ := he
          exact ⟨n, rest, h1, by rw [h2], h3, h4, h5, h6⟩

/-- The indentation that `identify` removes. -/
def indentOf (line0 : Bytes) : Nat := line0.length - (line0.dropWhile (fun c => isWs c && c != c! '\n')).length

theorem identify_ok {line : Bytes} (hb : Bd line) (hs : Safe line) :
    Sat Never (identify line) (fun r => IdentOk (indentOf line) (line.drop (indentOf line)) r.1 r.2 ∧
      indentOf line ≤ line.length) := by
  unfold identify indentOf
  have hdw := dropWhile_drop (fun c => isWs c && c != c! '\n') line
  have hbd := dropWhile_bd (p := fun c => isWs c && c != c! '\n') (by intro c hc; simp at hc; exact isWs_lt hc.1) hb hs
  have hle : line.length - (line.dropWhile (fun c => isWs c && c != c! '\n')).length ≤ line.length := by omega
  rw [← hdw]
  simp only
  generalize hl : line.dropWhile (fun c => isWs c && c != c! '\n') = l at *
  generalize line.length - l.length = indent at *
  cases l with
  | nil =>
    exact Sat.ok ⟨⟨by simp, by simp, fun _ => by simp, by simp, Or.inr rfl, rfl⟩, hle⟩
  | cons first chars =>
    refine Sat.bind (identMatch_ok indent first chars hbd.1 hbd.2) ?_
    intro r hr
    refine Sat.ok ⟨?_, hle⟩
    cases r with
    | none => exact ⟨by simp, by simp, fun _ => by simpa using hbd.1, by simp, Or.inr rfl, rfl⟩
    | some r => exact hr r.1 r.2 rfl

end Jotdown.Block
