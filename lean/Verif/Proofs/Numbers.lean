import Verif.Proofs.Base
import Verif.Spec.Numbers
/-! # Helper lemmas: list marker numbers -/
namespace Jotdown.Numbers
open Jotdown Block

theorem isDigit_toNat (c : UInt8) (h : isDigit c = true) : c.toNat - 48 < 10 ∧ 48 ≤ c.toNat := by
  revert c; apply ofFin; decide +kernel

/-- Folding decimal digits. -/
def decVal (acc : Nat) (n : Bytes) : Nat := n.foldl (fun acc c => 10 * acc + (c.toNat - 48)) acc

theorem parseDecimalLoop_ok (n : Bytes) (acc : Nat) (hd : ∀ c ∈ n, isDigit c = true)
    (hb : (acc + 1) * 10 ^ n.length ≤ u64Bound) :
    parseDecimalLoop acc n = .ok (decVal acc n) := by
  induction n generalizing acc with
  | nil => rfl
  | cons c n ih =>
    have h10 := isDigit_toNat c (hd c (by simp))
    have hp : 0 < 10 ^ n.length := Nat.pow_pos (by omega)
    have hstep : (acc * 10 + (c.toNat - 48) + 1) * 10 ^ n.length ≤ u64Bound := by
      refine Nat.le_trans ?_ hb
      rw [List.length_cons, Nat.pow_succ, Nat.mul_comm (10 ^ n.length) 10, ← Nat.mul_assoc]
      exact Nat.mul_le_mul_right _ (by omega)
    have hlt : acc * 10 + (c.toNat - 48) < u64Bound := by
      have : acc * 10 + (c.toNat - 48) + 1 ≤ (acc * 10 + (c.toNat - 48) + 1) * 10 ^ n.length :=
        Nat.le_mul_of_pos_right _ hp
      omega
    unfold parseDecimalLoop
    rw [if_pos (hd c (by simp)), if_pos hlt, ih _ (fun x hx => hd x (by simp [hx])) hstep]
    simp [decVal, Nat.mul_comm]

theorem decVal_lt (n : Bytes) (acc : Nat) (hd : ∀ c ∈ n, isDigit c = true) :
    decVal acc n < (acc + 1) * 10 ^ n.length := by
  induction n generalizing acc with
  | nil => simp [decVal]
  | cons c n ih =>
    have h10 := isDigit_toNat c (hd c (by simp))
    simp only [decVal, List.foldl_cons] at ih ⊢
    refine Nat.lt_of_lt_of_le (ih _ (fun x hx => hd x (by simp [hx]))) ?_
    rw [List.length_cons, Nat.pow_succ, Nat.mul_comm (10 ^ n.length) 10, ← Nat.mul_assoc]
    exact Nat.mul_le_mul_right _ (by omega)

/-! ## Roman numerals -/

theorem romanValue_eq (d : UInt8) (h : d ∈ b! "ivxlcdm" ∨ d ∈ b! "IVXLCDM") :
    romanValue d = .ok (romanDigit d) ∧
      (romanDigit d = 1 ∨ romanDigit d = 5 ∨ romanDigit d = 10 ∨ romanDigit d = 50 ∨ romanDigit d = 100 ∨
       romanDigit d = 500 ∨ romanDigit d = 1000) := by
  revert d; apply ofFin; decide +kernel

/-- Sum of the values of all digits smaller than one of value `v`. -/
def below (v : Nat) : Nat :=
  (if 1 < v then 1 else 0) + (if 5 < v then 5 else 0) + (if 10 < v then 10 else 0) + (if 50 < v then 50 else 0)
  + (if 100 < v then 100 else 0) + (if 500 < v then 500 else 0)

/-- Values of roman digits. -/
def RV (v : Nat) : Prop := v = 1 ∨ v = 5 ∨ v = 10 ∨ v = 50 ∨ v = 100 ∨ v = 500 ∨ v = 1000

theorem below_le {v : Nat} (h : RV v) : below v ≤ v ∧ v ≤ 1000 ∧ 1 ≤ v := by
  rcases h with h | h | h | h | h | h | h <;> subst h <;> decide

theorem below_lt {v w : Nat} (h : RV v) (h' : RV w) (hlt : v < w) : below v + v ≤ below w := by
  rcases h with h | h | h | h | h | h | h <;> subst h <;>
  rcases h' with h | h | h | h | h | h | h <;> subst h <;> first | (revert hlt; decide) | decide

/-- Digits from right to left, `prev` is the digit to the right. -/
theorem parseRomanLoop_ok (ds : Bytes) (prev sum : Nat) (hd : ∀ d ∈ ds, romanValue d = .ok (romanDigit d) ∧ RV (romanDigit d))
    (hp : RV prev ∧ below prev ≤ sum ∨ prev = 0)
    (hb : sum + 1000 * ds.length < u64Bound) :
    ∃ n, parseRomanLoop prev sum ds = .ok n ∧ n ≤ sum + 1000 * ds.length ∧
      (n : Int) + prev = sum + (if prev = 0 then romanSum (ds.map romanDigit).reverse
        else romanSum ((ds.map romanDigit).reverse ++ [prev])) := by
  induction ds generalizing prev sum with
  | nil =>
    refine ⟨sum, rfl, by simp, ?_⟩
    by_cases h0 : prev = 0 <;> simp [h0, romanSum]
  | cons d ds ih =>
    obtain ⟨h1, h2⟩ := hd d (by simp)
    have hle := below_le h2
    simp only [List.length_cons] at hb
    unfold parseRomanLoop
    rw [h1]
    simp only [Bind.bind, Except.bind]
    have key : ∀ (l : List Nat) (v w : Nat), romanSum (l ++ [v, w]) =
        romanSum (l ++ [v]) + (if v < w then -(v : Int) else v) - v + w := by
      intro l v w
      induction l with
      | nil => simp [romanSum]; split <;> omega
      | cons x l ihl =>
        cases l with
        | nil => simp [romanSum] at ihl ⊢; omega
        | cons y l => simp [romanSum] at ihl ⊢; omega
    have hne : romanDigit d ≠ 0 := by omega
    by_cases hv : romanDigit d < prev
    · rw [if_pos hv]
      rcases hp with ⟨hp1, hp2⟩ | hp
      · have hbl := below_lt h2 hp1 hv
        have hp0 : prev ≠ 0 := by have := below_le hp1; omega
        rw [show csub sum (romanDigit d) = .ok (sum - romanDigit d) from if_pos (by omega)]
        simp only
        obtain ⟨n, hn, hn2, hn3⟩ := ih (romanDigit d) (sum - romanDigit d) (fun x hx => hd x (by simp [hx]))
          (Or.inl ⟨h2, by omega⟩) (by omega)
        refine ⟨n, hn, by simp only [List.length_cons]; omega, ?_⟩
        rw [if_neg hne] at hn3
        rw [if_neg hp0, List.map_cons, List.reverse_cons, List.append_assoc]
        show _ = _ + romanSum ((ds.map romanDigit).reverse ++ [romanDigit d, prev])
        rw [key, if_pos hv]
        have hcast : ((sum - romanDigit d : Nat) : Int) = sum - romanDigit d := by omega
        rw [hcast] at hn3
        omega
      · omega
    · rw [if_neg hv]
      rw [show u64 (sum + romanDigit d) = .ok (sum + romanDigit d) from if_pos (by omega)]
      simp only
      obtain ⟨n, hn, hn2, hn3⟩ := ih (romanDigit d) (sum + romanDigit d) (fun x hx => hd x (by simp [hx]))
        (Or.inl ⟨h2, by omega⟩) (by omega)
      refine ⟨n, hn, by simp only [List.length_cons]; omega, ?_⟩
      rw [if_neg hne] at hn3
      rw [List.map_cons, List.reverse_cons, List.append_assoc]
      by_cases h0 : prev = 0
      · rw [if_pos h0, h0]
        push_cast at hn3
        omega
      · rw [if_neg h0]
        show _ = _ + romanSum ((ds.map romanDigit).reverse ++ [romanDigit d, prev])
        rw [key, if_neg hv]
        push_cast at hn3
        omega

theorem parseRoman_ok (n : Bytes) (hd : ∀ d ∈ n, d ∈ b! "ivxlcdm" ∨ d ∈ b! "IVXLCDM")
    (hb : 1000 * n.length < u64Bound) :
    ∃ v, parseRomanLoop 0 0 n.reverse = .ok v ∧ v ≤ 1000 * n.length ∧ (v : Int) = romanSum (n.map romanDigit) := by
  obtain ⟨v, h1, h2, h3⟩ := parseRomanLoop_ok n.reverse 0 0
    (fun d hdm => romanValue_eq d (hd d (by simpa using hdm))) (Or.inr rfl) (by simpa using hb)
  refine ⟨v, h1, by simpa using h2, ?_⟩
  rw [List.map_reverse, List.reverse_reverse] at h3
  simpa using h3

/-! ## Markers -/

theorem isNumDigit_iff (k : Numbering) (c : UInt8) : isNumDigit k c = true ↔ IsDigitOf k c := by
  cases k <;> simp only [isNumDigit, IsDigitOf]
  · revert c; apply ofFin; decide +kernel
  · revert c; apply ofFin; decide +kernel

theorem numberingOf_digit (c : UInt8) (k : Numbering) (h : numberingOf c = some k) : isNumDigit k c = true := by
  revert c; apply ofFin; cases k <;> decide +kernel

theorem numDigit_lt (k : Numbering) (c : UInt8) (h : isNumDigit k c = true) : c < 128 := by
  revert c; apply ofFin; cases k <;> decide +kernel

theorem alpha_single (c : UInt8) :
    (isLower c = true → parseAlphaLoop 97 1 0 [c] = .ok (letterPos c) ∧ letterPos c ≤ 26) ∧
    (isUpper c = true → parseAlphaLoop 65 1 0 [c] = .ok (letterPos c) ∧ letterPos c ≤ 26) := by
  revert c; apply ofFin; decide +kernel

/-- Numerals of the lengths that occur in markers have the right value, below `10 ^ 19`. -/
theorem parseNumber_ok (k : Numbering) (n : Bytes) (hne : n ≠ []) (hl : n.length ≤ maxLen k)
    (hd : ∀ c ∈ n, isNumDigit k c = true) :
    ∃ v, k.parseNumber n = .ok v ∧ (v : Int) = numeralValue k n ∧ v < 10 ^ 19 := by
  cases k with
  | decimal =>
    simp only [maxLen] at hl
    have hp : 10 ^ n.length ≤ 10 ^ 19 := Nat.pow_le_pow_right (by omega) hl
    refine ⟨decVal 0 n, ?_, rfl, ?_⟩
    · unfold Numbering.parseNumber
      simp only [List.isEmpty_iff, hne, if_false]
      exact parseDecimalLoop_ok n 0 hd (by unfold u64Bound; omega)
    · have := decVal_lt n 0 hd; omega
  | alphaLower =>
    simp only [maxLen] at hl
    match n, hne, hl with
    | [c], _, _ =>
      have := (alpha_single c).1 (hd c (by simp))
      exact ⟨letterPos c, this.1, by simp [numeralValue], by omega⟩
  | alphaUpper =>
    simp only [maxLen] at hl
    match n, hne, hl with
    | [c], _, _ =>
      have := (alpha_single c).2 (hd c (by simp))
      exact ⟨letterPos c, this.1, by simp [numeralValue], by omega⟩
  | romanLower =>
    simp only [maxLen] at hl
    obtain ⟨v, h1, h2, h3⟩ := parseRoman_ok n (fun d hm => Or.inl ((isNumDigit_iff .romanLower d).1 (hd d hm)))
      (by unfold u64Bound; omega)
    exact ⟨v, h1, h3, by omega⟩
  | romanUpper =>
    simp only [maxLen] at hl
    obtain ⟨v, h1, h2, h3⟩ := parseRoman_ok n (fun d hm => Or.inr ((isNumDigit_iff .romanUpper d).1 (hd d hm)))
      (by unfold u64Bound; omega)
    exact ⟨v, h1, h3, by omega⟩

theorem countWhile_takeWhile (p : UInt8 → Bool) (s : Bytes) : s.take (Lex.countWhile p s) = s.takeWhile p := by
  have := List.takeWhile_prefix (l := s) p
  exact (List.prefix_iff_eq_take.1 this).symm

/-- What a recognised ordered list marker looks like. -/
def MarkerOk (line : Bytes) (r : Option (ListNumber × NumStyle × Nat)) : Prop :=
  ∀ num style len, r = some (num, style, len) → ∃ n rest, line = marker style n ++ rest ∧
    len = (marker style n).length ∧ n ≠ [] ∧ (∀ c ∈ n, IsDigitOf num.numbering c) ∧
    (num.value : Int) = numeralValue num.numbering n ∧ num.value < 10 ^ 19 ∧ noneOrWs rest = true ∧
    n.length ≤ maxLen num.numbering ∧ (∃ c t, n = c :: t ∧ numberingOf c = some num.numbering)

theorem styleOf_cases {sp : Bool} {c : UInt8} {st : NumStyle} (h : styleOf sp c = some st) :
    c < 128 ∧ ∀ n, (if sp then [c! '('] else []) ++ n ++ [c] = marker st n ∧ (decide (st = .parenParen) = sp) := by
  unfold styleOf at h
  repeat' split at h
  all_goals simp at h
  all_goals subst h
  all_goals rename_i h1 h2
  all_goals first | subst h2 | skip
  all_goals simp_all [marker]

theorem orderedRest_ok (line : Bytes) (sp : Bool) (k : Numbering) (first : UInt8) (chars : Bytes)
    (hline : line = (if sp then [c! '('] else []) ++ first :: chars) (hnf : numberingOf first = some k)
    (hs : Safe line) : Sat Never (orderedRest line sp k chars) (MarkerOk line) := by
  have hf := numberingOf_digit _ _ hnf
  unfold orderedRest
  have hcw : Lex.countWhile (isNumDigit k) (chars.take (maxLen k - 1)) ≤ (chars.take (maxLen k - 1)).length :=
    Lex.countWhile_le _ _
  generalize hm : Lex.countWhile (isNumDigit k) (chars.take (maxLen k - 1)) = m at *
  have hmm : m ≤ chars.length ∧ m ≤ maxLen k - 1 := by simp at hcw; omega
  have hdig : ∀ c ∈ chars.take m, isNumDigit k c = true := by
    have : chars.take m = (chars.take (maxLen k - 1)).takeWhile (isNumDigit k) := by
      rw [← countWhile_takeWhile, hm, List.take_take]; congr 1; omega
    rw [this]
    intro c hc
    exact List.all_eq_true.1 List.all_takeWhile c hc
  simp only [Nat.add_sub_cancel_left]
  cases hdr : chars.drop m with
  | nil => exact Sat.ok (by intro _ _ _ h; simp at h)
  | cons post after =>
    simp only
    cases hst : styleOf sp post with
    | none => exact Sat.ok (by intro _ _ _ h; simp at h)
    | some style =>
      simp only
      split
      · rename_i hws
        obtain ⟨hpost, hmk⟩ := styleOf_cases hst
        have hn : line = marker style (first :: chars.take m) ++ after := by
          rw [← (hmk (first :: chars.take m)).1, hline]
          have : chars = chars.take m ++ post :: after := by rw [← hdr, List.take_append_drop]
          conv => lhs; rw [this]
          simp
        have hlen : (marker style (first :: chars.take m)).length = 1 + m + ((if sp = true then 1 else 0) + 1) := by
          rw [← (hmk (first :: chars.take m)).1]
          cases sp <;> simp <;> omega
        have hbd : Bd after := by
          rw [hline] at hs
          have h2 : Safe (post :: after) := by
            have : Safe (first :: chars) := hs.of_append
            rw [← hdr]; exact this.2.drop m
          exact h2.1 hpost
        have hmarker : strSlice line 0 (1 + m + ((if sp = true then 1 else 0) + 1)) = .ok (marker style (first :: chars.take m)) := by
          rw [← hlen]
          rw [strSlice_ok (by omega) (by rw [hn]; simp) (by rw [hn, ← (hmk (first :: chars.take m)).1]; cases sp <;> simp <;> first | exact not_isCont_of_lt (numDigit_lt k first hf) | decide)
            (by conv => { arg 1; rw [hn] }; rw [List.drop_left]; exact hbd)]
          conv => lhs; rw [hn]
          simp
        simp only [hmarker, Bind.bind, Except.bind]
        have hnum : style.number (marker style (first :: chars.take m)) = .ok (first :: chars.take m) := by
          unfold NumStyle.number
          rw [show csub (marker style (first :: chars.take m)).length 1 = .ok (1 + m + (if sp = true then 1 else 0)) by
            rw [hlen]; unfold csub; rw [if_pos (by omega)]; congr 1]
          simp only [Bind.bind, Except.bind]
          have hdecide := (hmk (first :: chars.take m)).2
          have hif : (if style = .parenParen then 1 else 0) = (if sp = true then 1 else 0) := by
            by_cases h : style = .parenParen <;> simp [h] at hdecide ⊢ <;> simp [← hdecide]
          rw [hif]
          have hfb : isCont first = false := not_isCont_of_lt (numDigit_lt k first hf)
          have hpb : isCont post = false := not_isCont_of_lt hpost
          have htl : (chars.take m).length = m := by simp; omega
          rw [← (hmk (first :: chars.take m)).1]
          cases sp with
          | false =>
            rw [strSlice_ok (by simp) (by simp; omega) (by simpa using hfb)
              (by have : 1 + m + 0 = (first :: chars.take m).length := by simp [htl]; omega
                  simp only [Bool.false_eq_true, if_false, List.nil_append]; rw [this, List.drop_left]; simpa using hpb)]
            have : 1 + m + 0 = (first :: chars.take m).length := by simp [htl]; omega
            simp only [Bool.false_eq_true, if_false, List.nil_append, List.drop_zero, Nat.sub_zero]
            rw [this, List.take_left]
          | true =>
            have h1 : 1 + m + 1 = (c! '(' :: first :: chars.take m).length := by simp [htl]; omega
            have h2 : 1 + m = (first :: chars.take m).length := by simp [htl]; omega
            rw [strSlice_ok (by simp) (by simp; omega) (by simpa using hfb)
              (by simp only [if_true, List.cons_append, List.nil_append]
                  rw [h1]
                  show Bd (List.drop _ ((c! '(' :: first :: chars.take m) ++ [post]))
                  rw [List.drop_left]; simpa using hpb)]
            simp only [if_true, List.cons_append, List.nil_append, List.drop_succ_cons, List.drop_zero, Nat.add_sub_cancel]
            rw [h2]
            show Except.ok (List.take _ ((first :: chars.take m) ++ [post])) = _
            rw [List.take_left]
        simp only [hnum]
        have hmax : 1 ≤ maxLen k := by cases k <;> decide
        obtain ⟨v, hv1, hv2, hv3⟩ := parseNumber_ok k (first :: chars.take m) (by simp)
          (by simp; omega) (by intro c hc; simp only [List.mem_cons] at hc; rcases hc with hc | hc
                               · rw [hc]; exact hf
                               · exact hdig c hc)
        simp only [hv1]
        refine Sat.ok ?_
        intro num st len he
        simp only [Option.some.injEq, Prod.mk.injEq] at he
        obtain ⟨rfl, rfl, rfl⟩ := he
        refine ⟨first :: chars.take m, after, hn, hlen.symm, by simp, ?_, hv2, hv3, hws, by simp; omega, first, _, rfl, hnf⟩
        intro c hc
        rw [← isNumDigit_iff]
        simp only [List.mem_cons] at hc
        rcases hc with hc | hc
        · rw [hc]; exact hf
        · exact hdig c hc
      · exact Sat.ok (by intro _ _ _ h; simp at h)

theorem maybeOrderedListItem_ok (line : Bytes) (hne : line ≠ []) (hs : Safe line) :
    Sat Never (maybeOrderedListItem line) (MarkerOk line) := by
  have hnone : MarkerOk line none := by intro _ _ _ h; simp at h
  unfold maybeOrderedListItem
  cases line with
  | nil => exact absurd rfl hne
  | cons c cs =>
    simp only
    split
    · rename_i hc
      cases cs with
      | nil => exact Sat.ok hnone
      | cons first chars =>
        simp only
        cases hk : numberingOf first with
        | none => exact Sat.ok hnone
        | some k => exact orderedRest_ok _ true k first chars (by simp [hc]) hk hs
    · cases hk : numberingOf c with
      | none => exact Sat.ok hnone
      | some k => exact orderedRest_ok _ false k c cs (by simp) hk hs

end Jotdown.Numbers
