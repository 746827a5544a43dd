import Verif.Proofs.Ident
import Verif.Spec.BlockSyntax
/-! # Identification of a block is the specified syntax -/
namespace Jotdown.Block
open Jotdown

theorem dropWhile_append_all {p : UInt8 → Bool} {a b : Bytes} (h : ∀ x ∈ a, p x = true) :
    (a ++ b).dropWhile p = b.dropWhile p := by
  induction a with
  | nil => rfl
  | cons x a ih =>
    simp only [List.cons_append, List.dropWhile_cons, h x (by simp), ↓reduceIte]
    exact ih (fun y hy => h y (by simp [hy]))

theorem trimEnd_append_ws {a b : Bytes} (h : ∀ x ∈ b, isWs x = true) : trimEnd (a ++ b) = trimEnd a := by
  unfold trimEnd
  rw [List.reverse_append, dropWhile_append_all (by simpa using h)]

theorem trimEnd_of_last {a : Bytes} (h : ∀ x, a.getLast? = some x → isWs x = false) : trimEnd a = a := by
  unfold trimEnd
  cases hr : a.reverse with
  | nil => simp at hr; simp [hr]
  | cons x r =>
    have : a = r.reverse ++ [x] := by rw [← List.reverse_reverse a, hr]; simp
    have hx := h x (by rw [this]; simp)
    rw [List.dropWhile_cons, hx]; simp [this]

end Jotdown.Block

namespace Jotdown.Attr
open Jotdown

/-- `valid` stops at the first end. -/
theorem validLoop_first (st : State) (n : Nat) (s : Bytes) {k : Nat} (hd : st ≠ .done) (hi : st ≠ .invalid)
    (h : validLoop st n s = .ok (.done, n + k)) : ∀ j, j < k → ∀ p ct q ct', p.state = st →
      frun (p, ct) (s.take j) = some (q, ct') → q.state ≠ .done := by
  induction s generalizing st n k with
  | nil =>
    unfold validLoop at h
    simp at h
    exact absurd h.1 hd
  | cons c s ih =>
    intro j hj p ct q ct' hp hr
    cases j with
    | zero => simp at hr; rw [← hr.1, hp]; exact hd
    | succ j =>
      unfold validLoop at h
      rw [step_eq c hd hi] at h
      simp only [Bind.bind, Except.bind] at h
      by_cases h1 : nextSt st c = .done ∨ nextSt st c = .invalid
      · rw [if_pos h1] at h
        simp [Pure.pure, Except.pure] at h
        omega
      rw [if_neg h1] at h
      simp only [not_or] at h1
      have hfs : fstep (p, ct) c = pureStep p ct c := by simp [fstep, hp, hd]
      rw [List.take_succ_cons, frun_cons, hfs] at hr
      cases hs : pureStep p ct c with
      | none => rw [hs] at hr; simp at hr
      | some x =>
        rw [hs] at hr
        have hxs : x.1.state = nextSt st c := by rw [(pureStep_state (q := x.1) (ct' := x.2) hs).1, hp]
        exact ih (nextSt st c) (n + 1) h1.1 h1.2 (k := k - 1) (by rw [h]; congr 2; omega) j (by omega) x.1 x.2 q ct' hxs hr

theorem take_trimEnd (s : Bytes) (k : Nat) : ∃ j, j ≤ k ∧ trimEnd (s.take k) = s.take j := by
  refine ⟨(trimEnd (s.take k)).length, ?_, ?_⟩
  · have := trimEnd_length_le (s.take k); simp at this; omega
  · have h := trimEnd_take (s.take k)
    have hl := trimEnd_length_le (s.take k)
    rw [List.take_take] at h
    simp at hl
    rw [h]
    congr 1
    simp only [List.length_take]
    omega

theorem attrLine_iff {r : Bytes} (hb : Bd (c! '{' :: r)) (hs : Safe (c! '{' :: r)) :
    valid (c! '{' :: r) = .ok (trimEnd (c! '{' :: r)).length ↔ Syntax.AttrLine (c! '{' :: r) := by
  obtain ⟨w, hw, hws⟩ := trimEnd_spec (c! '{' :: r)
  have hpos : 0 < (trimEnd (c! '{' :: r)).length := by
    cases ht : trimEnd (c! '{' :: r) with
    | nil =>
      rw [ht, List.nil_append] at hw
      have := hws (c! '{') (by rw [← hw]; simp)
      revert this; decide
    | cons _ _ => simp
  generalize hsd : c! '{' :: r = s at *
  have htt := trimEnd_take s
  -- acceptance of a prefix
  have hacc : ∀ k, Accepts (s.take k) → 0 < k → 0 < s.length → ∃ j ct q ct', j ≤ k ∧
      frun (⟨[], .start⟩, ct) (s.take j) = some (q, ct') ∧ q.state = .done := by
    intro k ⟨a, ha⟩ hk _
    have ha' : parseAttributes [] _ = .ok (.ok a) := ha
    rw [parseAttributes_ok_iff (hb.take k) (hs.take k)] at ha'
    obtain ⟨ct, hct⟩ := ha'
    obtain ⟨j, hj, hjt⟩ := take_trimEnd s k
    rw [hjt] at hct
    exact ⟨j, _, _, _, hj, hct, rfl⟩
  obtain ⟨st', k, hk, hA, hB⟩ := validLoop_eq .start 0 s (by simp) (by simp)
  have hlen : 0 < s.length := by rw [← hsd]; simp
  constructor
  · intro hv
    have hv0 := hv
    unfold valid at hv
    rw [hk] at hv
    simp only [Bind.bind, Except.bind, Pure.pure, Except.pure] at hv
    by_cases hd : st' = .done
    · rw [if_pos hd] at hv
      subst hd
      simp only [Except.ok.injEq] at hv
      obtain ⟨m, hm1, hm2, hm3, hm4⟩ := hA rfl
      have hkm : k = m := by omega
      subst hkm
      obtain ⟨q, ct', hr, hq⟩ := hm4 ⟨[], .start⟩ [] rfl
      refine ⟨⟨q.attrs, ?_⟩, ?_⟩
      · show parseAttributes [] _ = _
        have htr := trimEnd_bd_safe hb hs
        rw [parseAttributes_ok_iff htr.1 htr.2]
        refine ⟨ct', ?_⟩
        obtain ⟨l, hl⟩ := last_of_done (by simp) hr hq
        rw [hv, ← htt] at hl hr
        have : trimEnd (trimEnd s) = trimEnd s := by rw [hl]; exact trimEnd_concat (by decide)
        rw [this, hr]
        cases q with
        | mk a st => simp only at hq; rw [hq]
      · intro i hi hil hac
        obtain ⟨j, ct, q, ct', hj, hr, hq⟩ := hacc i hac hi hlen
        exact validLoop_first .start 0 s (by simp) (by simp) (k := k) (by rw [hk]; simp) j (by omega) _ _ _ _ rfl hr hq
    · rw [if_neg hd] at hv
      simp at hv; omega
  · intro ⟨h1, h2⟩
    unfold valid
    rw [hk]
    simp only [Bind.bind, Except.bind, Pure.pure, Except.pure]
    rw [htt] at h1
    obtain ⟨j, ct, q, ct', hj, hr, hq⟩ := hacc _ h1 hpos hlen
    by_cases hd : st' = .done
    · rw [if_pos hd]
      obtain ⟨m, hm1, hm2, hm3, hm4⟩ := hA hd
      have hkm : k = m := by omega
      subst hkm
      obtain ⟨q', ct'', hr', hq'⟩ := hm4 ⟨[], .start⟩ [] rfl
      obtain ⟨l, hl⟩ := last_of_done (by simp) hr' hq'
      congr 1
      have hle : k ≤ (trimEnd s).length := by
        rcases Nat.lt_or_ge (trimEnd s).length k with h | h
        · exfalso
          have hlast : s[k - 1]? = some (c! '}') := by
            have : (s.take k)[k - 1]? = some (c! '}') := by
              rw [hl]
              have : (s.take k).length = k := by simp; omega
              rw [hl] at this
              simp only [List.length_append, List.length_cons, List.length_nil] at this
              rw [List.getElem?_append_right (by omega), show k - 1 - l.length = 0 by omega]
              rfl
            rwa [List.getElem?_take_of_lt (by omega)] at this
          rw [hw, List.getElem?_append_right (by omega)] at hlast
          have := hws _ (List.mem_of_getElem? hlast)
          revert this; decide
        · exact h
      rcases Nat.lt_or_ge k (trimEnd s).length with h | h
      · exfalso
        refine h2 k hm3 h ⟨q'.attrs, ?_⟩
        show parseAttributes [] _ = _
        rw [parseAttributes_ok_iff (hb.take k) (hs.take k)]
        refine ⟨ct'', ?_⟩
        have : trimEnd (s.take k) = s.take k := by rw [hl]; exact trimEnd_concat (by decide)
        rw [this, hr']
        cases q' with
        | mk a st => simp only at hq'; rw [hq']
      · omega
    · exact absurd hq (hB hd j _ _ _ _ rfl hr)

end Jotdown.Attr
