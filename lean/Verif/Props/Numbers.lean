import Verif.Proofs.Ident
/-! # Properties of list numbering: C21, C22, C23 -/
namespace Jotdown.Numbers
open Jotdown Block

/-- C21: no line makes the identification of its block panic, and if it is recognised as an ordered
list item then after its indentation stands a numeral with the punctuation of the style, and the
reported value is the value of that numeral (and fits in a `u64`). -/
theorem C21_ordered_marker_value (line : Bytes) (hu : Utf8 line) :
    ∃ k span, identify line = .ok (k, span) ∧
      ∀ indent num style lb, k = .listItem indent (.ordered num style) lb →
        ∃ n rest, line.drop indent = marker style n ++ rest ∧ span = ⟨indent, indent + (marker style n).length⟩ ∧
          n ≠ [] ∧ (∀ c ∈ n, IsDigitOf num.numbering c) ∧
          (num.value : Int) = numeralValue num.numbering n ∧ num.value < 2 ^ 64 := by
  obtain ⟨⟨k, span⟩, hr, hk, -⟩ := (identify_ok hu.bd hu.safe).exists_ok
  refine ⟨k, span, hr, ?_⟩
  intro indent num style lb he
  subst he
  obtain ⟨h1, h2, h3, h4, h5, h6⟩ := hk.kind
  obtain ⟨n, rest, g1, g2, g3, g4, g5, g6⟩ := h6.2.1 num style rfl
  refine ⟨n, rest, by rw [h1]; exact g1, ?_, g3, g4, g5, by omega⟩
  simp only at h3 g2
  rw [← h1] at h3 g2
  cases span; simp_all

/-- Not vacuous: decimal, alphabetic and roman markers, also of maximal length. -/
example : identify (b! "  (mcmxcvi) x\n") = .ok (.listItem 2 (.ordered ⟨.romanLower, 1996⟩ .parenParen) false, ⟨2, 11⟩) ∧
    identify (b! "9999999999999999999. x") =
      .ok (.listItem 0 (.ordered ⟨.decimal, 9999999999999999999⟩ .period) false, ⟨0, 20⟩) ∧
    identify (b! "MDCLXVIMDCLXV) x") =
      .ok (.listItem 0 (.ordered ⟨.romanUpper, 3329⟩ .paren) false, ⟨0, 14⟩) ∧
    identify (b! "z) x") = .ok (.listItem 0 (.ordered ⟨.alphaLower, 26⟩ .paren) false, ⟨0, 2⟩) := by
  decide +kernel

/-! ## C22 -/

theorem romanSum_replicate (v k : Nat) (l : List Nat) (h : ∀ w, l.head? = some w → w ≤ v) :
    romanSum (List.replicate k v ++ l) = k * v + romanSum l := by
  induction k with
  | zero => simp
  | succ k ih =>
    rw [List.replicate_succ, List.cons_append]
    have hhead : ∀ w, (List.replicate k v ++ l).head? = some w → w ≤ v := by
      intro w hw
      cases k with
      | zero => exact h w (by simpa using hw)
      | succ k => simp [List.replicate_succ] at hw; omega
    cases hl : List.replicate k v ++ l with
    | nil =>
      rw [hl] at ih
      simp only [romanSum] at ih ⊢
      rw [Int.natCast_succ, Int.add_mul]
      omega
    | cons w r =>
      rw [hl] at ih hhead
      have := hhead w (by simp)
      rw [romanSum, if_neg (by omega), ih, Int.natCast_succ, Int.add_mul]
      omega

theorem romanSum_small : ∀ n : Fin 1000,
    (let ds := (romanOf (c! 'c') (c! 'd') (c! 'm') (n.val / 100 % 10)
        ++ romanOf (c! 'x') (c! 'l') (c! 'c') (n.val / 10 % 10) ++ romanOf (c! 'i') (c! 'v') (c! 'x') (n.val % 10));
      romanSum (ds.map romanDigit) = n.val ∧ (ds.head?.map romanDigit).all (· ≤ 1000) = true ∧ ds.length ≤ 12 ∧
      ds.all (fun d => decide (d ∈ b! "ivxlcdm")) = true ∧ ds.map (fun c => romanDigit (c - 32)) = ds.map romanDigit ∧
      ds.all (fun d => decide ((d - 32) ∈ b! "IVXLCDM")) = true) := by
  decide +kernel

theorem romanSum_roman (n : Nat) :
    romanSum ((romanLower n).map romanDigit) = n ∧ (romanLower n).length ≤ n / 1000 + 12 ∧
    (∀ d ∈ romanLower n, d ∈ b! "ivxlcdm") ∧ (∀ d ∈ romanUpper n, d ∈ b! "IVXLCDM") ∧
    (romanUpper n).map romanDigit = (romanLower n).map romanDigit := by
  have h := romanSum_small ⟨n % 1000, by omega⟩
  simp only at h
  have e1 : n % 1000 / 100 % 10 = n / 100 % 10 := by omega
  have e2 : n % 1000 / 10 % 10 = n / 10 % 10 := by omega
  have e3 : n % 1000 % 10 = n % 10 := by omega
  rw [e1, e2, e3] at h
  unfold romanUpper romanLower
  rw [List.append_assoc, List.append_assoc]
  rw [List.append_assoc] at h
  generalize romanOf (c! 'c') (c! 'd') (c! 'm') (n / 100 % 10) ++ (romanOf (c! 'x') (c! 'l') (c! 'c') (n / 10 % 10)
      ++ romanOf (c! 'i') (c! 'v') (c! 'x') (n % 10)) = ds at *
  obtain ⟨h1, h2, h3, h4, h5, h6⟩ := h
  refine ⟨?_, ?_, ?_, ?_, ?_⟩
  · rw [List.map_append, List.map_replicate, romanSum_replicate, h1]
    · have : romanDigit (c! 'm') = 1000 := by decide
      rw [this]; omega
    · intro w hw
      cases ds with
      | nil => simp at hw
      | cons d ds => simp at hw h2; rw [← hw]; exact h2
  · simp; omega
  · intro d hd
    rw [List.mem_append] at hd
    rcases hd with hd | hd
    · rw [(List.mem_replicate.1 hd).2]; decide
    · simpa using List.all_eq_true.1 h4 d hd
  · intro d hd
    rw [List.map_append, List.mem_append] at hd
    rcases hd with hd | hd
    · rw [List.map_replicate] at hd
      rw [(List.mem_replicate.1 hd).2]; decide
    · obtain ⟨c, hc, rfl⟩ := List.mem_map.1 hd
      simpa using List.all_eq_true.1 h6 c hc
  · rw [List.map_map, List.map_append, List.map_append, List.map_replicate, List.map_replicate]
    congr 1

/-- C22: the canonical roman numeral for `n`, in lower or upper case, parses to `n`. -/
theorem C22_roman_roundtrip (n : Nat) (hn : n < 10 ^ 19) :
    Numbering.romanLower.parseNumber (romanLower n) = .ok n ∧
    Numbering.romanUpper.parseNumber (romanUpper n) = .ok n := by
  obtain ⟨h1, h2, h3, h4, h5⟩ := romanSum_roman n
  have hb : 1000 * (romanLower n).length < u64Bound := by unfold u64Bound; omega
  have hl : (romanUpper n).length = (romanLower n).length := by simp [romanUpper]
  constructor
  · obtain ⟨v, hv, -, hv2⟩ := parseRoman_ok (romanLower n) (fun d hd => Or.inl (h3 d hd)) hb
    rw [h1] at hv2
    have : v = n := by omega
    rw [this] at hv; exact hv
  · obtain ⟨v, hv, -, hv2⟩ := parseRoman_ok (romanUpper n) (fun d hd => Or.inr (h4 d hd)) (by rw [hl]; exact hb)
    rw [h5, h1] at hv2
    have : v = n := by omega
    rw [this] at hv; exact hv

/-- Not vacuous. -/
example : romanLower 1994 = b! "mcmxciv" ∧ romanUpper 3888 = b! "MMMDCCCLXXXVIII" := by decide +kernel

/-- The punctuation is taken off again. -/
theorem number_marker (style : NumStyle) (n : Bytes) (hne : n ≠ []) (hn : ∀ c ∈ n, c < 128) :
    style.number (marker style n) = .ok n := by
  have hbd : ∀ t, Bd (n ++ t) := by
    intro t
    cases n with
    | nil => exact absurd rfl hne
    | cons c n => exact Bd_of_lt (hn c (by simp))
  unfold NumStyle.number
  cases style
  · have : csub (marker .period n).length 1 = .ok n.length := by simp [marker, csub]
    simp only [this, Bind.bind, Except.bind]
    rw [strSlice_ok (by simp) (by simp [marker]) (by simpa [marker] using hbd _) (by simp only [marker]; rw [List.drop_left]; simp; decide)]
    simp [marker]
  · have : csub (marker .paren n).length 1 = .ok n.length := by simp [marker, csub]
    simp only [this, Bind.bind, Except.bind]
    rw [strSlice_ok (by simp) (by simp [marker]) (by simpa [marker] using hbd _) (by simp only [marker]; rw [List.drop_left]; simp; decide)]
    simp [marker]
  · have : csub (marker .parenParen n).length 1 = .ok (n.length + 1) := by simp [marker, csub]
    simp only [this, Bind.bind, Except.bind]
    rw [strSlice_ok (by simp) (by simp [marker]) (by simpa [marker] using hbd _)
      (by simp only [marker, List.cons_append, List.nil_append, List.drop_succ_cons]; rw [List.drop_left]; simp; decide)]
    simp [marker]

theorem countWhile_digits (k : Numbering) (ds : Bytes) (post : UInt8) (after : Bytes) (m : Nat)
    (hd : ∀ c ∈ ds, isNumDigit k c = true) (hp : isNumDigit k post = false) (hm : ds.length ≤ m) :
    Lex.countWhile (isNumDigit k) ((ds ++ post :: after).take m) = ds.length := by
  unfold Lex.countWhile
  rw [List.take_append, List.take_of_length_le hm, List.takeWhile_append_of_pos hd]
  cases h : m - ds.length with
  | zero => simp
  | succ j => simp [hp]

/-- Marker recognition: a numeral of allowed length followed by whitespace or the end of the line. -/
theorem orderedRest_marker (k : Numbering) (style : NumStyle) (first : UInt8) (ds after : Bytes) (v : Nat)
    (hd : ∀ c ∈ first :: ds, isNumDigit k c = true) (hl : (first :: ds).length ≤ maxLen k)
    (hv : k.parseNumber (first :: ds) = .ok v) (hw : noneOrWs after = true) (hs : Safe after) :
    orderedRest (marker style (first :: ds) ++ after) (decide (style = .parenParen)) k
      (ds ++ (if style = .period then [c! '.'] else [c! ')']) ++ after) =
      .ok (some (⟨k, v⟩, style, (marker style (first :: ds)).length)) := by
  have hascii : ∀ c ∈ first :: ds, c < 128 := fun c hc => numDigit_lt k c (hd c hc)
  have hba : Bd after := by
    cases after with
    | nil => simp
    | cons c a => exact Bd_of_lt (isWs_lt hw)
  have hnd : ∀ p, (p = c! '.' ∨ p = c! ')') → isNumDigit k p = false := by
    intro p hp; rcases hp with rfl | rfl <;> cases k <;> decide
  have hslice : ∀ len, len = (marker style (first :: ds)).length →
      strSlice (marker style (first :: ds) ++ after) 0 len = .ok (marker style (first :: ds)) := by
    intro len hlen
    subst hlen
    rw [strSlice_ok (by simp) (by simp) ?_ (by rw [List.drop_left]; exact hba)]
    · simp
    · rw [List.drop_zero]
      have := hascii first (by simp)
      cases style <;> simp only [marker, List.cons_append, List.nil_append, Bd_cons]
      · exact not_isCont_of_lt this
      · exact not_isCont_of_lt this
      · decide
  have hnum := number_marker style (first :: ds) (by simp) hascii
  have hmx : ds.length ≤ maxLen k - 1 := by simp at hl; omega
  obtain ⟨post, hpost, hstyle⟩ : ∃ p, (p = c! '.' ∨ p = c! ')') ∧ ((if style = .period then [c! '.'] else [c! ')']) = [p]) ∧
      styleOf (decide (style = .parenParen)) p = some style := by
    cases style
    · exact ⟨c! '.', Or.inl rfl, rfl, by decide⟩
    · exact ⟨c! ')', Or.inr rfl, rfl, by decide⟩
    · exact ⟨c! ')', Or.inr rfl, rfl, by decide⟩
  unfold orderedRest
  rw [hstyle.1, List.append_assoc, List.singleton_append]
  rw [countWhile_digits k ds post after (maxLen k - 1) (fun c hc => hd c (by simp [hc])) (hnd post hpost) hmx]
  simp only [Nat.add_sub_cancel_left, List.drop_left, hstyle.2, hw, if_true]
  rw [hslice _ (by cases style <;> simp [marker] <;> omega)]
  simp only [Bind.bind, Except.bind, hnum, hv]
  have hlen : 1 + ds.length + ((if decide (style = .parenParen) = true then 1 else 0) + 1) = (marker style (first :: ds)).length := by
    cases style <;> simp [marker] <;> omega
  rw [hlen]
  rfl

theorem numberingOf_roman (f : UInt8) :
    (f ∈ b! "ivxlcdm" → numberingOf f = some .romanLower) ∧ (f ∈ b! "IVXLCDM" → numberingOf f = some .romanUpper) := by
  revert f; apply ofFin; decide +kernel

theorem digit_first (k : Numbering) (f : UInt8) (h : isNumDigit k f = true) :
    f ∉ b! "\n#>{|[-*+:`~( \t\r" ∧ f ≠ 12 := by
  revert f; apply ofFin; cases k <;> decide +kernel

theorem roman_first (n : Bytes) (hne : n ≠ []) :
    ((∀ d ∈ n, d ∈ b! "ivxlcdm") → ∃ f r, n = f :: r ∧ numberingOf f = some .romanLower) ∧
    ((∀ d ∈ n, d ∈ b! "IVXLCDM") → ∃ f r, n = f :: r ∧ numberingOf f = some .romanUpper) := by
  cases n with
  | nil => exact absurd rfl hne
  | cons f r =>
    constructor
    · intro h
      exact ⟨f, r, rfl, (numberingOf_roman f).1 (h f (by simp))⟩
    · intro h
      exact ⟨f, r, rfl, (numberingOf_roman f).2 (h f (by simp))⟩

/-- A line that starts with an unindented marker is recognised as a list item. -/
theorem identify_marker (k : Numbering) (style : NumStyle) (first : UInt8) (ds after : Bytes) (v : Nat)
    (hk : numberingOf first = some k) (hd : ∀ c ∈ first :: ds, isNumDigit k c = true)
    (hl : (first :: ds).length ≤ maxLen k)
    (hv : k.parseNumber (first :: ds) = .ok v) (hw : noneOrWs after = true) (hs : Safe after) :
    identify (marker style (first :: ds) ++ after) =
      .ok (.listItem 0 (.ordered ⟨k, v⟩ style) false, ⟨0, (marker style (first :: ds)).length⟩) := by
  have hr := orderedRest_marker k style first ds after v hd hl hv hw hs
  have hfirst : first ∉ b! "\n#>{|[-*+:`~( \t\r" ∧ first ≠ 12 := digit_first k first (hd first (by simp))
  have hm : maybeOrderedListItem (marker style (first :: ds) ++ after) =
      .ok (some (⟨k, v⟩, style, (marker style (first :: ds)).length)) := by
    unfold maybeOrderedListItem
    simp only [List.mem_cons, not_or, List.not_mem_nil, not_false_eq_true, and_true] at hfirst
    cases style
    · simp only [marker, List.cons_append] at hr ⊢
      simp only [hk]
      rw [if_neg hfirst.1.2.2.2.2.2.2.2.2.2.2.2.2.1]
      simpa using hr
    · simp only [marker, List.cons_append] at hr ⊢
      simp only [hk]
      rw [if_neg hfirst.1.2.2.2.2.2.2.2.2.2.2.2.2.1]
      simpa using hr
    · simp only [marker, List.cons_append, List.nil_append] at hr ⊢
      simp only [hk]
      simpa using hr
  obtain ⟨c, cs, hc, hne⟩ : ∃ c cs, marker style (first :: ds) ++ after = c :: cs ∧
      c ∉ b! "\n#>{|[-*+:`~ \t\r" ∧ c ≠ 12 := by
    cases style
    · exact ⟨first, ds ++ b! "." ++ after, by simp [marker], by simp at hfirst ⊢; simp [hfirst]⟩
    · exact ⟨first, ds ++ b! ")" ++ after, by simp [marker], by simp at hfirst ⊢; simp [hfirst]⟩
    · exact ⟨c! '(', first :: ds ++ b! ")" ++ after, by simp [marker], by decide⟩
  unfold identify
  rw [hc] at hm ⊢
  simp only [List.mem_cons, not_or, List.not_mem_nil, not_false_eq_true, and_true] at hne
  have hws : (isWs c && c != c! '\n') = false := by
    simp only [isWs]
    simp [hne]
  simp only [List.dropWhile_cons, hws, Bool.false_eq_true, if_false, Nat.sub_self]
  have hmm : identMatch 0 (c :: cs) (trimEnd (c :: cs)) c cs = .ok (some (.listItem 0 (.ordered ⟨k, v⟩ style) false, ⟨0, (marker style (first :: ds)).length⟩)) := by
    unfold identMatch
    simp only [hne, if_false, false_or, false_and, hm]
    simp [Bind.bind, Except.bind, Pure.pure, Except.pure]
  rw [hmm]
  rfl

/-- C22 for list items: a line that starts with the canonical roman numeral for `n` (of at most 13
digits) in any style starts or continues a list with number `n`. -/
theorem C22_roman_list_item (n : Nat) (h1 : 1 ≤ n) (style : NumStyle) (text : Bytes) (hu : Utf8 text)
    (hl : (romanLower n).length ≤ 13) :
    identify (marker style (romanLower n) ++ b! " " ++ text) =
      .ok (.listItem 0 (.ordered ⟨.romanLower, n⟩ style) false, ⟨0, (marker style (romanLower n)).length⟩) ∧
    identify (marker style (romanUpper n) ++ b! " " ++ text) =
      .ok (.listItem 0 (.ordered ⟨.romanUpper, n⟩ style) false, ⟨0, (marker style (romanUpper n)).length⟩) := by
  obtain ⟨r1, r2, r3, r4, r5⟩ := romanSum_roman n
  have hne : romanLower n ≠ [] := by
    intro h0; rw [h0] at r1; simp [romanSum] at r1; omega
  have hneu : romanUpper n ≠ [] := by simp [romanUpper, hne]
  have hn : n < 10 ^ 19 := by
    obtain ⟨v, hv, hv1, hv2⟩ := parseRoman_ok (romanLower n) (fun d hd => Or.inl (r3 d hd)) (by unfold u64Bound; omega)
    rw [r1] at hv2
    have : v = n := by omega
    omega
  obtain ⟨p1, p2⟩ := C22_roman_roundtrip n hn
  have hsafe : Safe (b! " " ++ text) := ⟨fun _ => hu.bd, hu.safe⟩
  constructor
  · obtain ⟨f, r, hf, hk⟩ := (roman_first _ hne).1 r3
    rw [List.append_assoc]
    rw [hf] at r3 hl p1 ⊢
    exact identify_marker .romanLower style f r _ n hk (fun c hc => (isNumDigit_iff .romanLower c).2 (r3 c hc)) hl p1 rfl hsafe
  · obtain ⟨f, r, hf, hk⟩ := (roman_first _ hneu).2 r4
    have hlu : (romanUpper n).length ≤ 13 := by simpa [romanUpper] using hl
    rw [List.append_assoc]
    rw [hf] at r4 hlu p2 ⊢
    exact identify_marker .romanUpper style f r _ n hk (fun c hc => (isNumDigit_iff .romanUpper c).2 (r4 c hc)) hlu p2 rfl hsafe

/-- Not vacuous. -/
example : (romanLower 1996).length ≤ 13 ∧ (romanLower 887).length ≤ 13 := by decide +kernel

/-! ## C23 -/

theorem ambiguity_spec (n : ListNumber) : ∃ r, n.ambiguity = .ok r ∧ ∀ m, r = some m ↔ LetterReading n m := by
  have p1 : Numbering.alphaLower.parseNumber (b! "i") = .ok 9 := by decide
  have p2 : Numbering.alphaLower.parseNumber (b! "v") = .ok 22 := by decide
  have p3 : Numbering.alphaLower.parseNumber (b! "x") = .ok 24 := by decide
  have p4 : Numbering.alphaLower.parseNumber (b! "l") = .ok 12 := by decide
  have p5 : Numbering.alphaLower.parseNumber (b! "c") = .ok 3 := by decide
  have p6 : Numbering.alphaLower.parseNumber (b! "d") = .ok 4 := by decide
  have p7 : Numbering.alphaLower.parseNumber (b! "m") = .ok 13 := by decide
  have spec : ∀ m, LetterReading n m ↔ ((n.value = 1 ∧ m.value = 9) ∨ (n.value = 5 ∧ m.value = 22) ∨ (n.value = 10 ∧ m.value = 24) ∨
      (n.value = 50 ∧ m.value = 12) ∨ (n.value = 100 ∧ m.value = 3) ∨ (n.value = 500 ∧ m.value = 4) ∨ (n.value = 1000 ∧ m.value = 13)) ∧
      ((n.numbering = .romanLower ∧ m.numbering = .alphaLower) ∨ (n.numbering = .romanUpper ∧ m.numbering = .alphaUpper)) := by
    intro m
    unfold LetterReading
    simp only [List.mem_cons, List.not_mem_nil, or_false, exists_eq_or_imp, exists_eq_left]
    have e : ∀ d ∈ b! "ivxlcdm", (d, romanDigit d, letterPos d) ∈ [(c! 'i', 1, 9), (c! 'v', 5, 22), (c! 'x', 10, 24),
      (c! 'l', 50, 12), (c! 'c', 100, 3), (c! 'd', 500, 4), (c! 'm', 1000, 13)] := by decide
    simp [romanDigit, letterPos, isLower]
    grind
  unfold ListNumber.ambiguity
  obtain ⟨k, v⟩ := n
  simp only at spec
  cases k
  case decimal | alphaLower | alphaUpper => exact ⟨none, rfl, fun m => by rw [spec]; simp⟩
  all_goals
    simp only
    by_cases e1 : v = 1
    · subst e1; refine ⟨_, rfl, fun m => ?_⟩
      obtain ⟨mk, mv⟩ := m; rw [spec]; simp; grind
    by_cases e2 : v = 5
    · subst e2; refine ⟨_, rfl, fun m => ?_⟩
      obtain ⟨mk, mv⟩ := m; rw [spec]; simp; grind
    by_cases e3 : v = 10
    · subst e3; refine ⟨_, rfl, fun m => ?_⟩
      obtain ⟨mk, mv⟩ := m; rw [spec]; simp; grind
    by_cases e4 : v = 50
    · subst e4; refine ⟨_, rfl, fun m => ?_⟩
      obtain ⟨mk, mv⟩ := m; rw [spec]; simp; grind
    by_cases e5 : v = 100
    · subst e5; refine ⟨_, rfl, fun m => ?_⟩
      obtain ⟨mk, mv⟩ := m; rw [spec]; simp; grind
    by_cases e6 : v = 500
    · subst e6; refine ⟨_, rfl, fun m => ?_⟩
      obtain ⟨mk, mv⟩ := m; rw [spec]; simp; grind
    by_cases e7 : v = 1000
    · subst e7; refine ⟨_, rfl, fun m => ?_⟩
      obtain ⟨mk, mv⟩ := m; rw [spec]; simp; grind
    refine ⟨none, by simp [e1, e2, e3, e4, e5, e6, e7], fun m => ?_⟩
    rw [spec]; simp [e1, e2, e3, e4, e5, e6, e7]

theorem letterPos_roman (d : UInt8) (h : d ∈ b! "ivxlcdm") : letterPos d ≤ 26 := by
  revert d; apply ofFin; decide +kernel

/-- C23: whether a list item continues the list of the previous one (`a` is the type of the
previous item, `b` of the new one): it does exactly if both have the same bullet or the same
numbering and style, or one is a roman number that read as a letter makes the numbering consecutive.
The types are then returned with that reading. Values are bounded as shown in C21. -/
theorem C23_list_continuation (a b : ListType)
    (ha : ∀ n s, a = .ordered n s → n.value < 10 ^ 19) (hb : ∀ n s, b = .ordered n s → n.value < 10 ^ 19) :
    ∃ r, a.continues b = .ok r ∧ ∀ a' b', r = some (a', b') ↔
      ((a = b ∨ ∃ n m s, a = .ordered n s ∧ b = .ordered m s ∧ n.numbering = m.numbering) ∧ a' = a ∧ b' = b) ∨
      (∃ n m s n', a = .ordered n s ∧ b = .ordered m s ∧ LetterReading n n' ∧ Consecutive n' m ∧
        a' = .ordered n' s ∧ b' = b) ∨
      (∃ n m s m', a = .ordered n s ∧ b = .ordered m s ∧ LetterReading m m' ∧ Consecutive n m' ∧
        a' = a ∧ b' = .ordered m' s) := by
  have lr_num : ∀ {n n' : ListNumber}, LetterReading n n' →
      n'.value ≤ 26 ∧ ((n.numbering = .romanLower ∧ n'.numbering = .alphaLower) ∨ (n.numbering = .romanUpper ∧ n'.numbering = .alphaUpper)) := by
    rintro n n' ⟨d, hd, -, h2, h3⟩
    refine ⟨?_, h3⟩
    rw [h2]
    exact letterPos_roman d hd
  unfold ListType.continues
  by_cases hab : a = b
  · subst hab
    rw [if_pos rfl]
    refine ⟨_, rfl, fun a' b' => ?_⟩
    constructor
    · intro h; simp at h; left; exact ⟨Or.inl rfl, h.1.symm, h.2.symm⟩
    · rintro (⟨-, rfl, rfl⟩ | ⟨n, m, s, n', h1, h2, h3, h4, -, -⟩ | ⟨n, m, s, n', h1, h2, h3, h4, -, -⟩)
      · rfl
      · rw [h1] at h2; injection h2 with h2; subst h2
        have := (lr_num h3).2
        rcases this with ⟨g1, g2⟩ | ⟨g1, g2⟩ <;> · have := h4.1; rw [g1, g2] at this; cases this
      · rw [h1] at h2; injection h2 with h2; subst h2
        have := (lr_num h3).2
        rcases this with ⟨g1, g2⟩ | ⟨g1, g2⟩ <;> · have := h4.1; rw [g1, g2] at this; cases this
  · rw [if_neg hab]
    cases a with
    | unordered x => exact ⟨none, by cases b <;> rfl, fun a' b' => by simp [hab]⟩
    | task x => exact ⟨none, by cases b <;> rfl, fun a' b' => by simp [hab]⟩
    | description => exact ⟨none, by cases b <;> rfl, fun a' b' => by simp [hab]⟩
    | ordered n0 s0 =>
      cases b with
      | unordered x => exact ⟨none, rfl, fun a' b' => by simp⟩
      | task x => exact ⟨none, rfl, fun a' b' => by simp⟩
      | description => exact ⟨none, rfl, fun a' b' => by simp⟩
      | ordered n1 s1 =>
        have hv0 := ha n0 s0 rfl
        have hv1 := hb n1 s1 rfl
        simp only
        by_cases hs : s0 = s1
        · subst hs
          by_cases hn : n0.numbering = n1.numbering
          · rw [if_pos ⟨hn, rfl⟩]
            refine ⟨_, rfl, fun a' b' => ?_⟩
            constructor
            · intro h; simp at h; left; refine ⟨Or.inr ⟨n0, n1, s0, rfl, rfl, hn⟩, h.1.symm, h.2.symm⟩
            · rintro (⟨-, rfl, rfl⟩ | ⟨n, m, s, n', h1, h2, h3, h4, -, -⟩ | ⟨n, m, s, n', h1, h2, h3, h4, -, -⟩)
              · rfl
              all_goals
                injection h1 with h1 _; subst h1
                injection h2 with h2 _; subst h2
                rcases (lr_num h3).2 with ⟨g1, g2⟩ | ⟨g1, g2⟩ <;>
                · have := h4.1; simp_all
          · rw [if_neg (fun h => hn h.1), if_pos rfl]
            obtain ⟨r0, hr0, hs0⟩ := ambiguity_spec n0
            obtain ⟨r1, hr1, hs1⟩ := ambiguity_spec n1
            simp only [hr0, Bind.bind, Except.bind]
            have hu : ∀ x, x < 10 ^ 19 → u64 (x + 1) = .ok (x + 1) := by
              intro x hx; exact if_pos (by unfold u64Bound; omega)
            have hneg : ¬ (ListType.ordered n0 s0 = .ordered n1 s0 ∨
                ∃ n m s, ListType.ordered n0 s0 = .ordered n s ∧ ListType.ordered n1 s0 = .ordered m s ∧ n.numbering = m.numbering) := by
              rintro (h | ⟨n, m, s, h1, h2, h3⟩)
              · exact hab h
              · injection h1 with h1 _; injection h2 with h2 _; subst h1; subst h2; exact hn h3
            cases r0 with
            | some na0 =>
              have hl0 := (hs0 na0).1 rfl
              have hno1 : ∀ m', LetterReading n1 m' → ¬ Consecutive n0 m' := by
                intro m' hm' hc
                rcases (lr_num hm').2 with ⟨g1, g2⟩ | ⟨g1, g2⟩ <;> rcases (lr_num hl0).2 with ⟨g3, g4⟩ | ⟨g3, g4⟩ <;>
                · have := hc.1; rw [g2, g3] at this; cases this
              have huniq : ∀ n', LetterReading n0 n' → n' = na0 := by
                intro n' hn'
                have := (hs0 n').2 hn'
                injection this with this; exact this.symm
              simp only
              by_cases hq : na0.numbering = n1.numbering
              · rw [if_pos hq, hu _ (by have := (lr_num hl0).1; omega)]
                simp only
                refine ⟨_, rfl, fun a' b' => ?_⟩
                by_cases hv : na0.value + 1 = n1.value
                · rw [if_pos hv]
                  constructor
                  · intro h; simp at h
                    right; left; exact ⟨n0, n1, s0, na0, rfl, rfl, hl0, ⟨hq.symm, hv.symm⟩, h.1.symm, h.2.symm⟩
                  · rintro (⟨h, -⟩ | ⟨n, m, s, n', h1, h2, h3, h4, rfl, rfl⟩ | ⟨n, m, s, n', h1, h2, h3, h4, -, -⟩)
                    · exact absurd h hneg
                    · injection h1 with h1 h1'; subst h1; subst h1'; rw [huniq n' h3]
                    · injection h1 with h1 _; injection h2 with h2 _; subst h1; subst h2; exact absurd h4 (hno1 _ h3)
                · rw [if_neg hv]
                  constructor
                  · intro h; simp at h
                  · rintro (⟨h, -⟩ | ⟨n, m, s, n', h1, h2, h3, h4, rfl, rfl⟩ | ⟨n, m, s, n', h1, h2, h3, h4, -, -⟩)
                    · exact absurd h hneg
                    · injection h1 with h1 _; injection h2 with h2 _; subst h1; subst h2
                      rw [huniq n' h3] at h4; exact absurd h4.2.symm hv
                    · injection h1 with h1 _; injection h2 with h2 _; subst h1; subst h2; exact absurd h4 (hno1 _ h3)
              · rw [if_neg hq]
                refine ⟨none, rfl, fun a' b' => ?_⟩
                constructor
                · intro h; simp at h
                · rintro (⟨h, -⟩ | ⟨n, m, s, n', h1, h2, h3, h4, rfl, rfl⟩ | ⟨n, m, s, n', h1, h2, h3, h4, -, -⟩)
                  · exact absurd h hneg
                  · injection h1 with h1 _; injection h2 with h2 _; subst h1; subst h2
                    rw [huniq n' h3] at h4; exact absurd h4.1.symm hq
                  · injection h1 with h1 _; injection h2 with h2 _; subst h1; subst h2; exact absurd h4 (hno1 _ h3)
            | none =>
              have hno0 : ∀ n', ¬ LetterReading n0 n' := by
                intro n' hn'
                have := (hs0 n').2 hn'; simp at this
              simp only [hr1]
              cases r1 with
              | none =>
                have hno1 : ∀ n', ¬ LetterReading n1 n' := by
                  intro n' hn'
                  have := (hs1 n').2 hn'; simp at this
                refine ⟨none, rfl, fun a' b' => ?_⟩
                constructor
                · intro h; simp at h
                · rintro (⟨h, -⟩ | ⟨n, m, s, n', h1, h2, h3, h4, rfl, rfl⟩ | ⟨n, m, s, n', h1, h2, h3, h4, -, -⟩)
                  · exact absurd h hneg
                  · injection h1 with h1 _; subst h1; exact absurd h3 (hno0 _)
                  · injection h2 with h2 _; subst h2; exact absurd h3 (hno1 _)
              | some na1 =>
                have hl1 := (hs1 na1).1 rfl
                have huniq : ∀ n', LetterReading n1 n' → n' = na1 := by
                  intro n' hn'
                  have := (hs1 n').2 hn'
                  injection this with this; exact this.symm
                simp only
                by_cases hq : n0.numbering = na1.numbering
                · rw [if_pos hq, hu _ hv0]
                  simp only
                  refine ⟨_, rfl, fun a' b' => ?_⟩
                  by_cases hv : n0.value + 1 = na1.value
                  · rw [if_pos hv]
                    constructor
                    · intro h; simp at h
                      right; right; exact ⟨n0, n1, s0, na1, rfl, rfl, hl1, ⟨hq.symm, hv.symm⟩, h.1.symm, h.2.symm⟩
                    · rintro (⟨h, -⟩ | ⟨n, m, s, n', h1, h2, h3, h4, rfl, rfl⟩ | ⟨n, m, s, n', h1, h2, h3, h4, rfl, rfl⟩)
                      · exact absurd h hneg
                      · injection h1 with h1 _; subst h1; exact absurd h3 (hno0 _)
                      · injection h2 with h2 h2'; subst h2; subst h2'; rw [huniq n' h3]
                  · rw [if_neg hv]
                    constructor
                    · intro h; simp at h
                    · rintro (⟨h, -⟩ | ⟨n, m, s, n', h1, h2, h3, h4, rfl, rfl⟩ | ⟨n, m, s, n', h1, h2, h3, h4, rfl, rfl⟩)
                      · exact absurd h hneg
                      · injection h1 with h1 _; subst h1; exact absurd h3 (hno0 _)
                      · injection h1 with h1 _; injection h2 with h2 _; subst h1; subst h2
                        rw [huniq n' h3] at h4; exact absurd h4.2.symm hv
                · rw [if_neg hq]
                  refine ⟨none, rfl, fun a' b' => ?_⟩
                  constructor
                  · intro h; simp at h
                  · rintro (⟨h, -⟩ | ⟨n, m, s, n', h1, h2, h3, h4, rfl, rfl⟩ | ⟨n, m, s, n', h1, h2, h3, h4, rfl, rfl⟩)
                    · exact absurd h hneg
                    · injection h1 with h1 _; subst h1; exact absurd h3 (hno0 _)
                    · injection h1 with h1 _; injection h2 with h2 _; subst h1; subst h2
                      rw [huniq n' h3] at h4; exact absurd h4.1.symm hq
        · rw [if_neg (fun h => hs h.2), if_neg hs]
          refine ⟨none, rfl, fun a' b' => ?_⟩
          constructor
          · intro h; simp at h
          · rintro (⟨h | ⟨n, m, s, h1, h2, -⟩, -⟩ | ⟨n, m, s, n', h1, h2, -⟩ | ⟨n, m, s, n', h1, h2, -⟩)
            · exact absurd h hab
            all_goals
              injection h1 with _ h1; injection h2 with _ h2; exact absurd (h1.trans h2.symm) hs

/-- Not vacuous: `h.` followed by the roman number `i.`; `c.` (100) followed by `d.` read as letters. -/
example : ListType.continues (.ordered ⟨.alphaLower, 8⟩ .period) (.ordered ⟨.romanLower, 1⟩ .period)
      = .ok (some (.ordered ⟨.alphaLower, 8⟩ .period, .ordered ⟨.alphaLower, 9⟩ .period)) ∧
    ListType.continues (.ordered ⟨.romanUpper, 1⟩ .paren) (.ordered ⟨.alphaUpper, 10⟩ .paren)
      = .ok (some (.ordered ⟨.alphaUpper, 9⟩ .paren, .ordered ⟨.alphaUpper, 10⟩ .paren)) ∧
    ListType.continues (.ordered ⟨.romanUpper, 1⟩ .paren) (.ordered ⟨.alphaUpper, 11⟩ .paren) = .ok none := by
  decide +kernel

end Jotdown.Numbers
