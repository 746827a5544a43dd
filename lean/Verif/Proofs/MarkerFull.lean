import Verif.Proofs.MarkerSound
/-! # Identification of a block is the specified syntax: everything is identified -/
namespace Jotdown.Block
open Jotdown Syntax

theorem replicate_append_cons {n : Nat} {f first : UInt8} {r chars : Bytes} (hn : 1 ≤ n)
    (h : first :: chars = List.replicate n f ++ r) : first = f ∧ chars = List.replicate (n - 1) f ++ r := by
  cases n with
  | zero => omega
  | succ n => rw [List.replicate_succ, List.cons_append] at h; simpa using h

theorem dropWhile_replicate_append {n : Nat} {f : UInt8} {r : Bytes} (h : r.head? ≠ some f) :
    (List.replicate n f ++ r).dropWhile (· == f) = r := by
  rw [List.dropWhile_append_of_pos (by simp)]
  cases r with
  | nil => rfl
  | cons c r => rw [List.dropWhile_cons_of_neg]; simpa using h

theorem countWhile_replicate_append {n : Nat} {f : UInt8} {r : Bytes} (h : r.head? ≠ some f) :
    Lex.countWhile (· == f) (List.replicate n f ++ r) = n := by
  unfold Lex.countWhile
  rw [List.takeWhile_append_of_pos (by simp)]
  cases r with
  | nil => simp
  | cons c r => rw [List.takeWhile_cons_of_neg (by simpa using h)]; simp

theorem findByte_none {c : UInt8} {s : Bytes} (h : findByte c s = none) : c ∉ s := by
  induction s with
  | nil => simp
  | cons d s ih =>
    unfold findByte at h
    split at h
    · cases h
    · rename_i hd
      simp only [Option.map_eq_none_iff] at h
      simp only [List.mem_cons, not_or]
      exact ⟨fun e => hd e.symm, ih h⟩

theorem identDefinition_full {indent : Nat} {label r : Bytes} {x : Option (Kind × Span)} (hl : c! ']' ∉ label)
    (h : identDefinition indent (label ++ b! "]:" ++ r) = .ok x) : x ≠ none := by
  unfold identDefinition at h
  cases hf : findByte (c! ']') (label ++ b! "]:" ++ r) with
  | none => exact absurd (findByte_none hf) (by simp)
  | some l =>
    rw [hf] at h
    obtain ⟨h1, h2⟩ := findByte_some hf
    have hll : l = label.length := by
      rcases Nat.lt_trichotomy l label.length with hlt | heq | hgt
      · exfalso
        rw [List.append_assoc, List.getElem?_append_left hlt] at h1
        exact hl (List.mem_of_getElem? h1)
      · exact heq
      · exfalso
        refine h2 label.length hgt ?_
        rw [List.append_assoc, List.getElem?_append_right (Nat.le_refl _)]
        simp
    subst hll
    obtain ⟨after, ha, h⟩ := bind_ok h
    have ha' := strSlice_val ha
    rw [List.take_of_length_le (by rw [List.length_drop]; exact Nat.le_refl _)] at ha'
    have hd : (label ++ b! "]:" ++ r).drop (label.length + 1) = c! ':' :: r := by
      rw [List.append_assoc, ← List.drop_drop, List.drop_left]
      rfl
    rw [hd] at ha'
    subst ha'
    rw [if_pos (show (c! ':' :: r).head? = some (c! ':') from rfl)] at h
    obtain ⟨_, _, h⟩ := bind_ok h
    obtain ⟨_, _, h⟩ := bind_ok h
    cases h
    simp

theorem identFence_full {indent n : Nat} {f : UInt8} {r chars : Bytes} {x : Option (Kind × Span)} (hfw : isWs f = false) (hn : 3 ≤ n)
    (hr : r.head? ≠ some f) (hline : f :: chars = List.replicate n f ++ r)
    (hv : (f = c! ':' ∧ ∀ c ∈ trim r, Attr.isName c = true) ∨ (f ≠ c! ':' ∧ ∀ c ∈ trim r, isWs c = false ∧ c ≠ c! '`'))
    (h : identFence indent f (f :: chars) (trimEnd (f :: chars)) chars = .ok x) : x ≠ none := by
  unfold identFence at h
  obtain ⟨spec, h1, h⟩ := bind_ok h
  have h1' := strSlice_val h1
  rw [List.take_of_length_le (by simp)] at h1'
  obtain ⟨-, hch⟩ := replicate_append_cons (by omega) hline
  have hcw : 1 + Lex.countWhile (· == f) chars = n := by
    rw [hch, countWhile_replicate_append hr]; omega
  rw [hcw] at h h1'
  have hsp : trimStart spec = trim r := by
    rw [h1', hline]
    exact fence_spec hfw (by omega)
  simp only [hsp] at h
  rcases hv with ⟨hf, hv⟩ | ⟨hf, hv⟩
  · simp only [if_pos hf] at h
    rw [if_pos (by simp [hn]; simpa using hv)] at h
    cases h; simp
  · simp only [if_neg hf] at h
    have hok : (!(trim r).any isWs && !(trim r).any (· == c! '`')) = true := by
      simp only [Bool.and_eq_true, Bool.not_eq_true', List.any_eq_false]
      exact ⟨fun c hc => by simp [(hv c hc).1], fun c hc => by simp [(hv c hc).2]⟩
    rw [if_pos (by rw [hok]; simp [hn])] at h
    cases h; simp

theorem numberingOf_first {k : Numbering} {c : UInt8} {t : Bytes} (hok : NumeralOk k (c :: t))
    (hd : ∀ d ∈ c :: t, Numbers.IsDigitOf k d) : numberingOf c = some k := by
  have hc := hd c (by simp)
  rw [← Numbers.isNumDigit_iff] at hc
  cases k
  · clear hd hok; revert c; apply ofFin; decide +kernel
  · have h2 := hok.2 c (by simp)
    clear hd hok; revert h2; revert hc; revert c; apply ofFin; decide +kernel
  · have h2 := hok.2 c (by simp)
    clear hd hok; revert h2; revert hc; revert c; apply ofFin; decide +kernel
  · clear hd hok; revert c; apply ofFin; decide +kernel
  · clear hd hok; revert c; apply ofFin; decide +kernel

theorem numeral_len {k : Numbering} {n : Bytes} (hok : NumeralOk k n) : n.length ≤ maxLen k := by
  cases k
  · exact hok
  · exact Nat.le_of_eq hok.1
  · exact Nat.le_of_eq hok.1
  · exact hok
  · exact hok

theorem countWhile_take_eq {p : UInt8 → Bool} {n r : Bytes} {m : Nat} {d : UInt8} (hn : ∀ c ∈ n, p c = true) (hm : n.length ≤ m)
    (hd : p d = false) : Lex.countWhile p ((n ++ d :: r).take m) = n.length := by
  unfold Lex.countWhile
  rw [List.take_append, List.take_of_length_le hm, List.takeWhile_append_of_pos hn]
  cases hk : m - n.length with
  | zero => simp
  | succ k => rw [List.take_succ_cons, List.takeWhile_cons_of_neg (by simp [hd])]; simp

theorem orderedRest_full {line : Bytes} {sp : Bool} {k : Numbering} {n after : Bytes} {post : UInt8} {style : NumStyle}
    {x : Option (ListNumber × NumStyle × Nat)} (hn : ∀ c ∈ n, isNumDigit k c = true) (hl : n.length + 1 ≤ maxLen k)
    (hp : isNumDigit k post = false) (hst : styleOf sp post = some style) (hw : noneOrWs after = true)
    (h : orderedRest line sp k (n ++ post :: after) = .ok x) : x ≠ none := by
  unfold orderedRest at h
  simp only [countWhile_take_eq hn (show n.length ≤ maxLen k - 1 by omega) hp, Nat.add_sub_cancel_left, List.drop_left] at h
  rw [hst] at h
  simp only at h
  rw [if_pos hw] at h
  obtain ⟨_, _, h⟩ := bind_ok h
  obtain ⟨_, _, h⟩ := bind_ok h
  obtain ⟨_, _, h⟩ := bind_ok h
  cases h
  simp

theorem numDigit_not_punct (k : Numbering) : isNumDigit k (c! '.') = false ∧ isNumDigit k (c! ')') = false := by
  cases k <;> decide

theorem ordered_full {k : Numbering} {style : NumStyle} {n r : Bytes} {x : Option (ListNumber × NumStyle × Nat)} (hn : n ≠ [])
    (hd : ∀ c ∈ n, Numbers.IsDigitOf k c) (hok : NumeralOk k n) (hw : Spaced r)
    (h : maybeOrderedListItem (Numbers.marker style n ++ r) = .ok x) : x ≠ none := by
  cases n with
  | nil => exact absurd rfl hn
  | cons c t =>
    have hk := numberingOf_first hok hd
    have hl := numeral_len hok
    simp only [List.length_cons] at hl
    have ht : ∀ d ∈ t, isNumDigit k d = true := fun d hm => (Numbers.isNumDigit_iff k d).2 (hd d (by simp [hm]))
    have hnp : c ≠ c! '(' := by
      intro e; subst e; rw [show numberingOf (c! '(') = none by decide] at hk; cases hk
    have hp := numDigit_not_punct k
    unfold maybeOrderedListItem at h
    cases style with
    | period =>
      simp only [Numbers.marker, List.cons_append, List.append_assoc, List.nil_append] at h
      rw [if_neg hnp, hk] at h
      exact orderedRest_full ht hl hp.1 (sp := false) rfl (spaced_iff.2 hw) h
    | paren =>
      simp only [Numbers.marker, List.cons_append, List.append_assoc, List.nil_append] at h
      rw [if_neg hnp, hk] at h
      exact orderedRest_full ht hl hp.2 (sp := false) rfl (spaced_iff.2 hw) h
    | parenParen =>
      simp only [Numbers.marker, List.cons_append, List.append_assoc, List.nil_append] at h
      rw [if_pos trivial, hk] at h
      exact orderedRest_full ht hl hp.2 (sp := true) rfl (spaced_iff.2 hw) h

theorem thematic_head {b : UInt8} (hb : isMark b = true) : b = c! '-' ∨ b = c! '*' := by
  simpa [isMark] using hb

/-- Numerals and parentheses do not look like anything else. -/
theorem ordered_head (k : Numbering) (style : NumStyle) {n r chars : Bytes} {first : UInt8} (hn : n ≠ [])
    (hd : ∀ c ∈ n, Numbers.IsDigitOf k c) (h : first :: chars = Numbers.marker style n ++ r) :
    first = c! '(' ∨ isAlnum first = true := by
  cases n with
  | nil => exact absurd rfl hn
  | cons c t =>
    have hc := (Numbers.isNumDigit_iff k c).2 (hd c (by simp))
    have : isAlnum c = true := by
      clear hd h hn; revert hc; revert c; apply ofFin; cases k <;> decide +kernel
    cases style <;> simp [Numbers.marker] at h <;> simp [h.1, this]

/-! `identMatch`, one branch at a time. -/

section
variable {indent : Nat} {line lineT chars : Bytes} {first : UInt8}

theorem identMatch_at0  (h0 : first = c! '\n') :
    identMatch indent line lineT first chars = .ok (some (.atom .blankline, ⟨indent, indent + 1⟩)) := by
  unfold identMatch
  rw [if_pos h0]

theorem identMatch_at1 (h0 : ¬ first = c! '\n') (h1 : first = c! '#') :
    identMatch indent line lineT first chars = .ok (if noneOrWs (chars.dropWhile (· == c! '#')) then
      some (.heading (Lex.countWhile (· == c! '#') line), ⟨indent, indent + Lex.countWhile (· == c! '#') line⟩)
    else none) := by
  unfold identMatch
  rw [if_neg h0, if_pos h1]

theorem identMatch_at2 (h0 : ¬ first = c! '\n') (h1 : ¬ first = c! '#') (h2 : first = c! '>') :
    identMatch indent line lineT first chars = .ok (if noneOrWs chars then some (.blockquote, ⟨indent, indent + 1⟩) else none) := by
  unfold identMatch
  rw [if_neg h0, if_neg h1, if_pos h2]

theorem identMatch_at3 (h0 : ¬ first = c! '\n') (h1 : ¬ first = c! '#') (h2 : ¬ first = c! '>') (h3 : first = c! '{') :
    identMatch indent line lineT first chars = (do
    let v ← Attr.valid line
    pure (if v = lineT.length then some (.atom .attributes, ⟨indent, indent + line.length⟩) else none)) := by
  unfold identMatch
  rw [if_neg h0, if_neg h1, if_neg h2, if_pos h3]

theorem identMatch_at4 (h0 : ¬ first = c! '\n') (h1 : ¬ first = c! '#') (h2 : ¬ first = c! '>') (h3 : ¬ first = c! '{') (h4 : first = c! '|') :
    identMatch indent line lineT first chars = .ok (if identTable lineT then some (.table false false, ⟨indent, indent⟩) else none) := by
  unfold identMatch
  rw [if_neg h0, if_neg h1, if_neg h2, if_neg h3, if_pos h4]

theorem identMatch_at5 (h0 : ¬ first = c! '\n') (h1 : ¬ first = c! '#') (h2 : ¬ first = c! '>') (h3 : ¬ first = c! '{') (h4 : ¬ first = c! '|') (h5 : first = c! '[') :
    identMatch indent line lineT first chars = identDefinition indent chars := by
  unfold identMatch
  rw [if_neg h0, if_neg h1, if_neg h2, if_neg h3, if_neg h4, if_pos h5]

theorem identMatch_at6 (h0 : ¬ first = c! '\n') (h1 : ¬ first = c! '#') (h2 : ¬ first = c! '>') (h3 : ¬ first = c! '{') (h4 : ¬ first = c! '|') (h5 : ¬ first = c! '[') (h6 : ((first = c! '-' ∨ first = c! '*') ∧ isThematicBreak chars)) :
    identMatch indent line lineT first chars = .ok (some (.atom .thematicBreak, ⟨indent, indent + lineT.length⟩)) := by
  unfold identMatch
  rw [if_neg h0, if_neg h1, if_neg h2, if_neg h3, if_neg h4, if_neg h5, if_pos h6]

theorem identMatch_at7 (h0 : ¬ first = c! '\n') (h1 : ¬ first = c! '#') (h2 : ¬ first = c! '>') (h3 : ¬ first = c! '{') (h4 : ¬ first = c! '|') (h5 : ¬ first = c! '[') (h6 : ¬ ((first = c! '-' ∨ first = c! '*') ∧ isThematicBreak chars)) (h7 : (first = c! '-' ∨ first = c! '*' ∨ first = c! '+')) :
    identMatch indent line lineT first chars = .ok (identBullet indent first chars) := by
  unfold identMatch
  rw [if_neg h0, if_neg h1, if_neg h2, if_neg h3, if_neg h4, if_neg h5, if_neg h6, if_pos h7]

theorem identMatch_at8 (h0 : ¬ first = c! '\n') (h1 : ¬ first = c! '#') (h2 : ¬ first = c! '>') (h3 : ¬ first = c! '{') (h4 : ¬ first = c! '|') (h5 : ¬ first = c! '[') (h6 : ¬ ((first = c! '-' ∨ first = c! '*') ∧ isThematicBreak chars)) (h7 : ¬ (first = c! '-' ∨ first = c! '*' ∨ first = c! '+')) (h8 : (first = c! ':' ∧ noneOrWs chars)) :
    identMatch indent line lineT first chars = .ok (some (.listItem indent .description false, ⟨indent, indent + 1⟩)) := by
  unfold identMatch
  rw [if_neg h0, if_neg h1, if_neg h2, if_neg h3, if_neg h4, if_neg h5, if_neg h6, if_neg h7, if_pos h8]

theorem identMatch_at9 (h0 : ¬ first = c! '\n') (h1 : ¬ first = c! '#') (h2 : ¬ first = c! '>') (h3 : ¬ first = c! '{') (h4 : ¬ first = c! '|') (h5 : ¬ first = c! '[') (h6 : ¬ ((first = c! '-' ∨ first = c! '*') ∧ isThematicBreak chars)) (h7 : ¬ (first = c! '-' ∨ first = c! '*' ∨ first = c! '+')) (h8 : ¬ (first = c! ':' ∧ noneOrWs chars)) (h9 : (first = c! '`' ∨ first = c! ':' ∨ first = c! '~')) :
    identMatch indent line lineT first chars = identFence indent first line lineT chars := by
  unfold identMatch
  rw [if_neg h0, if_neg h1, if_neg h2, if_neg h3, if_neg h4, if_neg h5, if_neg h6, if_neg h7, if_neg h8, if_pos h9]

theorem identMatch_at10 (h0 : ¬ first = c! '\n') (h1 : ¬ first = c! '#') (h2 : ¬ first = c! '>') (h3 : ¬ first = c! '{') (h4 : ¬ first = c! '|') (h5 : ¬ first = c! '[') (h6 : ¬ ((first = c! '-' ∨ first = c! '*') ∧ isThematicBreak chars)) (h7 : ¬ (first = c! '-' ∨ first = c! '*' ∨ first = c! '+')) (h8 : ¬ (first = c! ':' ∧ noneOrWs chars)) (h9 : ¬ (first = c! '`' ∨ first = c! ':' ∨ first = c! '~')) :
    identMatch indent line lineT first chars = (do
    let r ← maybeOrderedListItem line
    pure (r.map fun (num, style, len) => (.listItem indent (.ordered num style) false, ⟨indent, indent + len⟩))) := by
  unfold identMatch
  rw [if_neg h0, if_neg h1, if_neg h2, if_neg h3, if_neg h4, if_neg h5, if_neg h6, if_neg h7, if_neg h8, if_neg h9]

end

/-- Everything that is specified is identified. -/
theorem identMatch_full {indent : Nat} {first : UInt8} {chars : Bytes} {o : Opening} {n : Nat} {x : Option (Kind × Span)}
    (hb : Bd (first :: chars)) (hs : Safe (first :: chars)) (hm : Marker (first :: chars) o n)
    (h : identMatch indent (first :: chars) (trimEnd (first :: chars)) first chars = .ok x) : x ≠ none := by
  generalize hl : first :: chars = line at hm
  cases hm with
  | empty => cases hl
  | newline =>
    simp only [List.cons.injEq] at hl
    obtain ⟨rfl, rfl⟩ := hl
    rw [identMatch_at0 rfl] at h
    cases h; simp
  | @heading n r hn hw =>
    obtain ⟨rfl, hch⟩ := replicate_append_cons hn hl
    have hr : r.head? ≠ some (c! '#') := by
      intro e
      have := hw _ e
      revert this; decide
    rw [identMatch_at1 (by decide) rfl] at h
    cases h
    rw [hch, dropWhile_replicate_append hr, if_pos (spaced_iff.2 hw)]
    simp
  | @blockquote r hw =>
    simp only [List.cons.injEq] at hl
    obtain ⟨rfl, rfl⟩ := hl
    rw [identMatch_at2 (by decide) (by decide) rfl, if_pos (spaced_iff.2 hw)] at h
    cases h; simp
  | @attributes r ha =>
    simp only [List.cons.injEq] at hl
    obtain ⟨rfl, rfl⟩ := hl
    rw [identMatch_at3 (by decide) (by decide) (by decide) rfl, (Attr.attrLine_iff hb hs).2 ha] at h
    simp only [Bind.bind, Except.bind, if_pos rfl] at h
    cases h; simp
  | @table r m ht hesc =>
    simp only [List.cons.injEq] at hl
    obtain ⟨rfl, rfl⟩ := hl
    rw [identMatch_at4 (by decide) (by decide) (by decide) (by decide) rfl] at h
    have hi : identTable (trimEnd (c! '|' :: chars)) = true := by
      rw [ht]
      unfold identTable
      simp only [Bool.and_eq_true, decide_eq_true_eq, Bool.not_eq_true']
      refine ⟨⟨by simp, ?_⟩, ?_⟩
      · rw [List.isSuffixOf_iff_suffix]; exact ⟨c! '|' :: m, rfl⟩
      · rw [Bool.eq_false_iff]
        intro hsu
        rw [List.isSuffixOf_iff_suffix] at hsu
        obtain ⟨u, hu⟩ := hsu
        have h2 : u ++ [c! '\\'] = c! '|' :: m := by
          have : (u ++ [c! '\\']) ++ [c! '|'] = (c! '|' :: m) ++ [c! '|'] := by simpa using hu
          exact List.append_cancel_right this
        apply hesc
        cases u with
        | nil => simp at h2
        | cons d u => simp at h2; rw [← h2.2]; simp
    rw [if_pos hi] at h
    cases h; simp
  | @linkDefinition label r hlab hh =>
    simp only [List.cons_append, List.cons.injEq] at hl
    obtain ⟨rfl, rfl⟩ := hl
    rw [identMatch_at5 (by decide) (by decide) (by decide) (by decide) (by decide) rfl] at h
    exact identDefinition_full (label := label) (r := r) hlab (by simpa using h)
  | @footnote label r hlab =>
    simp only [List.cons_append, List.nil_append, List.cons.injEq] at hl
    obtain ⟨rfl, rfl⟩ := hl
    rw [identMatch_at5 (by decide) (by decide) (by decide) (by decide) (by decide) rfl] at h
    exact identDefinition_full (label := c! '^' :: label) (r := r) (by simp [hlab]) (by simpa using h)
  | @thematicBreak c r hc hbr =>
    simp only [List.cons.injEq] at hl
    obtain ⟨rfl, rfl⟩ := hl
    have hh := thematic_head hc
    rw [identMatch_at6 (by rcases hh with e | e <;> subst e <;> decide) (by rcases hh with e | e <;> subst e <;> decide) (by rcases hh with e | e <;> subst e <;> decide) (by rcases hh with e | e <;> subst e <;> decide) (by rcases hh with e | e <;> subst e <;> decide) (by rcases hh with e | e <;> subst e <;> decide) ⟨hh, (isThematic_iff hc).2 hbr⟩] at h
    cases h; simp
  | @unordered b r hbu hsp hnb hnt =>
    simp only [List.cons.injEq] at hl
    obtain ⟨rfl, rfl⟩ := hl
    have hh : first = c! '-' ∨ first = c! '*' ∨ first = c! '+' := by simpa using hbu
    rw [identMatch_at7 (by rcases hh with e | e | e <;> subst e <;> decide) (by rcases hh with e | e | e <;> subst e <;> decide) (by rcases hh with e | e | e <;> subst e <;> decide) (by rcases hh with e | e | e <;> subst e <;> decide) (by rcases hh with e | e | e <;> subst e <;> decide) (by rcases hh with e | e | e <;> subst e <;> decide) (by
        intro ⟨h1, h2⟩
        exact hnb ((isThematic_iff (by rcases h1 with e | e <;> subst e <;> decide)).1 h2)) hh] at h
    cases h
    unfold identBullet
    rw [if_pos (by
      rcases hsp with e | e
      · rw [e]
      · cases chars with
        | nil => rfl
        | cons c cs => simpa using e)]
    split <;> simp
  | @task b y s hbu hx hw =>
    simp only [List.cons_append, List.nil_append, List.cons.injEq] at hl
    obtain ⟨rfl, rfl⟩ := hl
    have hh : first = c! '-' ∨ first = c! '*' ∨ first = c! '+' := by simpa using hbu
    rw [identMatch_at7 (by rcases hh with e | e | e <;> subst e <;> decide) (by rcases hh with e | e | e <;> subst e <;> decide) (by rcases hh with e | e | e <;> subst e <;> decide) (by rcases hh with e | e | e <;> subst e <;> decide) (by rcases hh with e | e | e <;> subst e <;> decide) (by rcases hh with e | e | e <;> subst e <;> decide) (by
        intro ⟨h1, h2⟩
        have hbr := (isThematic_iff (b := first) (by rcases h1 with e | e <;> subst e <;> decide)).1 h2
        rcases hbr.1 (c! '[') (by simp) with e | e <;> revert e <;> decide) hh] at h
    cases h
    unfold identBullet
    simp only [beq_self_eq_true, if_true]
    split <;> simp
  | @description r hw =>
    simp only [List.cons.injEq] at hl
    obtain ⟨rfl, rfl⟩ := hl
    rw [identMatch_at8 (by decide) (by decide) (by decide) (by decide) (by decide) (by decide) (by intro ⟨h, _⟩; revert h; decide) (by decide) ⟨rfl, spaced_iff.2 hw⟩] at h
    cases h; simp
  | @div n r hn hr hv =>
    obtain ⟨rfl, hch⟩ := replicate_append_cons (by omega) hl
    rw [identMatch_at9 (by decide) (by decide) (by decide) (by decide) (by decide) (by decide) (by intro ⟨h, _⟩; revert h; decide) (by decide) (by
        intro ⟨_, h2⟩
        rw [hch, show n - 1 = (n - 2) + 1 by omega, List.replicate_succ] at h2
        revert h2; simp [noneOrWs]; decide) (by decide)] at h
    exact identFence_full (by decide) hn hr hl (Or.inl ⟨rfl, hv⟩) h
  | @code n f r hf hn hr hv =>
    obtain ⟨rfl, hch⟩ := replicate_append_cons (by omega) hl
    rw [identMatch_at9 (by rcases hf with e | e <;> subst e <;> decide) (by rcases hf with e | e <;> subst e <;> decide) (by rcases hf with e | e <;> subst e <;> decide) (by rcases hf with e | e <;> subst e <;> decide) (by rcases hf with e | e <;> subst e <;> decide) (by rcases hf with e | e <;> subst e <;> decide) (by intro ⟨h, _⟩; revert h; rcases hf with e | e <;> subst e <;> decide) (by rcases hf with e | e <;> subst e <;> decide) (by intro ⟨h, _⟩; revert h; rcases hf with e | e <;> subst e <;> decide) (by rcases hf with e | e <;> subst e <;> decide)] at h
    exact identFence_full (by rcases hf with e | e <;> subst e <;> decide) hn hr hl
      (Or.inr ⟨by rcases hf with e | e <;> subst e <;> decide, hv⟩) h
  | @ordered k style n r v hn hd hok hv hw =>
    have hh := ordered_head k style hn hd hl
    have key : ∀ c : UInt8, c ≠ c! '(' → isAlnum c = false → first ≠ c := by
      rintro c h1 h2 rfl
      rcases hh with e | e
      · exact h1 e
      · rw [h2] at e; cases e
    rw [identMatch_at10 (key _ (by decide) (by decide)) (key _ (by decide) (by decide)) (key _ (by decide) (by decide)) (key _ (by decide) (by decide)) (key _ (by decide) (by decide)) (key _ (by decide) (by decide)) (by
        intro ⟨h, _⟩
        rcases h with h | h <;> exact key _ (by decide) (by decide) h) (by
        intro h
        rcases h with h | h | h <;> exact key _ (by decide) (by decide) h) (by intro ⟨h, _⟩; exact key _ (by decide) (by decide) h) (by
        intro h
        rcases h with h | h | h <;> exact key _ (by decide) (by decide) h)] at h
    obtain ⟨y, hy, h⟩ := bind_ok h
    cases h
    rw [hl] at hy
    have := ordered_full hn hd hok hw hy
    simpa using this

theorem firstLine_drop {s : Bytes} {n : Nat} (h : c! '\n' ∉ s.take n) : firstLine (s.drop n) = (firstLine s).drop n := by
  induction s generalizing n with
  | nil => simp [firstLine]
  | cons c s ih =>
    cases n with
    | zero => rfl
    | succ n =>
      simp only [List.take_succ_cons, List.mem_cons, not_or] at h
      rw [List.drop_succ_cons, ih h.2]
      conv => rhs; unfold firstLine
      rw [if_neg (fun e => h.1 e.symm), List.drop_succ_cons]

theorem firstLine_idem (s : Bytes) : firstLine (firstLine s) = firstLine s := by
  induction s with
  | nil => rfl
  | cons c s ih =>
    by_cases h : c = c! '\n'
    · simp [h, firstLine]
    · have hc : ∀ t, firstLine (c :: t) = c :: firstLine t := by
        intro t
        conv => lhs; unfold firstLine
        rw [if_neg h]
      rw [hc, hc, ih]

/-- The indentation is whitespace without newlines. -/
theorem indent_take (line : Bytes) : ∀ c ∈ line.take (indentOf line), isWs c = true ∧ c ≠ c! '\n' := by
  have h := List.takeWhile_append_dropWhile (p := fun c => isWs c && c != c! '\n') (l := line)
  have hl : indentOf line = (line.takeWhile (fun c => isWs c && c != c! '\n')).length := by
    unfold indentOf
    have := congrArg List.length h
    simp only [List.length_append] at this
    omega
  have ht : line.take (indentOf line) = line.takeWhile (fun c => isWs c && c != c! '\n') := by
    rw [hl]
    exact (List.prefix_iff_eq_take.1 (List.takeWhile_prefix _)).symm
  rw [ht]
  intro c hc
  have := List.all_eq_true.1 List.all_takeWhile c hc
  simpa using this

theorem indent_drop (line : Bytes) : line.drop (indentOf line) = line.dropWhile (fun c => isWs c && c != c! '\n') :=
  (dropWhile_drop _ line).symm

/-- What `identify` reads. -/
theorem identify_read {line : Bytes} {k : Kind} {sp : Span} (hb : Bd line) (hs : Safe line) (hone : firstLine line = line)
    (h : identify line = .ok (k, sp)) :
    (k = .paragraph ∧ sp = ⟨indentOf line, indentOf line⟩ ∧
      (∃ c, (line.drop (indentOf line)).head? = some c ∧ isWs c = false) ∧ Plain (line.drop (indentOf line))) ∨
    Read (indentOf line) (line.drop (indentOf line)) (some (k, sp)) := by
  have hbd := dropWhile_bd (p := fun c => isWs c && c != c! '\n') (by intro c hc; simp at hc; exact isWs_lt hc.1) hb hs
  have hlone : firstLine (line.drop (indentOf line)) = line.drop (indentOf line) := by
    rw [firstLine_drop (fun hm => (indent_take line _ hm).2 rfl), hone]
  have hhead : ∀ c, (line.drop (indentOf line)).head? = some c → isWs c = false ∨ c = c! '\n' := by
    intro c hc
    rw [indent_drop] at hc
    have := List.head?_dropWhile_not (fun c => isWs c && c != c! '\n') line
    rw [hc] at this
    simp only [Bool.and_eq_false_imp, bne_eq_false_iff_eq] at this
    cases hw : isWs c
    · exact Or.inl rfl
    · exact Or.inr (this hw)
  rw [← indent_drop] at hbd
  have he : identify line = (match line.drop (indentOf line) with
      | [] => .ok (.atom .blankline, ⟨indentOf line, indentOf line⟩)
      | first :: chars => do
        let r ← identMatch (indentOf line) (line.drop (indentOf line)) (trimEnd (line.drop (indentOf line))) first chars
        pure (r.getD (.paragraph, ⟨indentOf line, indentOf line⟩))) := by
    unfold identify
    rw [indent_drop]
    rfl
  rw [he] at h
  generalize indentOf line = indent at *
  generalize line.drop indent = l at *
  cases l with
  | nil =>
    simp only [Except.ok.injEq, Prod.mk.injEq] at h
    obtain ⟨rfl, rfl⟩ := h
    exact Or.inr (read_some .empty .blank rfl rfl)
  | cons first chars =>
    simp only at h
    obtain ⟨r, h1, h⟩ := bind_ok h
    simp only [Pure.pure, Except.pure, Except.ok.injEq] at h
    cases r with
    | none =>
      simp only [Option.getD_none, Prod.mk.injEq] at h
      obtain ⟨rfl, rfl⟩ := h
      have hp : Plain (first :: chars) := fun o n hm => identMatch_full hbd.1 hbd.2 hm h1 rfl
      refine Or.inl ⟨rfl, rfl, ⟨first, rfl, ?_⟩, hp⟩
      rcases hhead first rfl with h | h
      · exact h
      · exfalso
        subst h
        have := firstLine_cons_newline hlone
        subst this
        exact hp _ _ .newline
    | some r =>
      simp only [Option.getD_some] at h
      subst h
      exact Or.inr (identMatch_read hbd.1 hbd.2 hlone h1)

end Jotdown.Block
