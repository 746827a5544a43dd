import Verif.Model.Inline
import Verif.Proofs.Lex
/-! # Properties C26, C27: runs of dashes and periods -/
namespace Jotdown.Inline
open Jotdown

/-- `n` atoms of `w` bytes each, starting at offset `at_`. -/
def atoms (a : Atom) (w : Nat) (at_ : Nat) : Nat → List Event
  | 0 => []
  | n + 1 => ⟨.atom a, ⟨at_, at_ + w⟩⟩ :: atoms a w (at_ + w) n

theorem repeatAtom_eq (a : Atom) (w n : Nat) (p : IP) :
    p.repeatAtom a w n = { p with
      events := p.events ++ atoms a w p.input.span.start n
      input := { p.input with span := ⟨p.input.span.start + w * n, p.input.span.stop⟩ } } := by
  induction n generalizing p with
  | zero => simp [IP.repeatAtom, atoms]
  | succ n ih =>
    rw [IP.repeatAtom, ih]
    simp only [IP.pushSp, atoms, List.append_assoc, List.cons_append, List.nil_append]
    rw [show p.input.span.start + w + w * n = p.input.span.start + w * (n + 1) by rw [Nat.mul_succ]; omega]

theorem ellipses_eq (n : Nat) (p : IP) :
    p.ellipses n = { p with
      events := p.events ++ atoms .ellipsis 3 p.input.span.start n
      input := { p.input with span := ⟨p.input.span.start + 3 * n, p.input.span.stop⟩ } } := by
  induction n generalizing p with
  | zero => simp [IP.ellipses, atoms]
  | succ n ih =>
    rw [IP.ellipses, ih]
    simp only [IP.pushSp, atoms, List.append_assoc, List.cons_append, List.nil_append]
    rw [show p.input.span.start + 3 + 3 * n = p.input.span.start + 3 * (n + 1) by omega]

/-- How a run of `n ≥ 2` hyphens is to be rendered: `m` em dashes followed by `k` en dashes. -/
structure Dashes (n m k : Nat) : Prop where
  covers : 3 * m + 2 * k = n
  em : n % 3 = 0 → k = 0
  en : n % 3 ≠ 0 → n % 2 = 0 → m = 0
  fewest : n % 3 ≠ 0 → n % 2 ≠ 0 → ∀ m' k', 3 * m' + 2 * k' = n → k ≤ k'

theorem dashes_ok (n : Nat) (h : 2 ≤ n) : ∃ m k, dashes n = .ok (m, k) ∧ Dashes n m k := by
  unfold dashes
  split
  · exact ⟨n / 3, 0, rfl, by omega, by simp, by omega, by omega⟩
  · split
    · exact ⟨0, n / 2, rfl, by omega, by omega, by simp, by omega⟩
    · have h5 : 5 ≤ n := by omega
      have hc1 : csub n (2 * 1) = .ok (n - 2) := by unfold csub; rw [if_pos (by omega)]
      have hc2 : csub n (2 * (1 + 1)) = .ok (n - 4) := by unfold csub; rw [if_pos (by omega)]
      by_cases hm : (n - 2) % 3 = 0
      · refine ⟨(n - 2) / 3, 1, ?_, by omega, by omega, by omega, by intro _ _ m' k'; omega⟩
        simp only [findEn, hc1, bind, Except.bind, hm, if_true, pure, Except.pure]
      · have hq : n % 3 = 1 := by
          rcases (show n % 3 = 0 ∨ n % 3 = 1 ∨ n % 3 = 2 by omega) with h | h | h <;> omega
        obtain ⟨q, rfl⟩ : ∃ q, n = 3 * q + 4 := ⟨(n - 4) / 3, by omega⟩
        have hm2 : (3 * q + 4 - 4) % 3 = 0 := by omega
        refine ⟨(3 * q + 4 - 4) / 3, 2, ?_, by omega, by omega, by omega, by intro _ _ m' k'; omega⟩
        simp only [findEn, hc1, hc2, bind, Except.bind, hm, hm2, if_true, if_false, pure, Except.pure]

/-- The token is left alone by everything tried before atoms. -/
theorem parseToken_seq (p : IP) (s : Lex.Sequence) (n : Nat) (hs : s ≠ .backtick)
    (hv : p.verbatim = none) (ha : p.attributes = none) :
    p.parseToken ⟨.seq s, n⟩ =
      (do let (p, o) ← p.parseAtom ⟨.seq s, n⟩
          match o with
          | some f => pure (p, f)
          | none => pure (p.push .str, .cont)) := by
  have hclose : ∀ os, findOpener (.seq s) os = none := by
    intro os
    induction os with
    | nil => rfl
    | cons o os ih =>
      obtain ⟨o, i⟩ := o
      unfold findOpener
      rw [ih]
      have : o.closedBy (.seq s) = false := by
        cases o with
        | strong d => cases d <;> simp [Opener.closedBy]
        | emphasis d => cases d <;> simp [Opener.closedBy]
        | superscript d => cases d <;> simp [Opener.closedBy]
        | subscript d => cases d <;> simp [Opener.closedBy]
        | link a b c => cases c <;> simp [Opener.closedBy]
        | _ => simp [Opener.closedBy]
      simp [this]
  have h1 : p.parseVerbatim ⟨.seq s, n⟩ = .ok (p, none) := by
    unfold IP.parseVerbatim
    rw [hv]
    simp [hs]
  have h2 : p.parseAttributes ⟨.seq s, n⟩ = .ok (p, none) := by
    unfold IP.parseAttributes
    simp [ha, dassert, bind, Except.bind, pure, Except.pure]
  have h3 : p.parseAutolink ⟨.seq s, n⟩ = .ok (p, none) := by
    unfold IP.parseAutolink; simp
  have h4 : p.parseSymbol ⟨.seq s, n⟩ = .ok (p, none) := by
    unfold IP.parseSymbol; simp
  have h5 : p.parseFootnoteReference ⟨.seq s, n⟩ = .ok (p, none) := by
    unfold IP.parseFootnoteReference; simp
  have h6 : p.parseContainer ⟨.seq s, n⟩ = .ok (p, none) := by
    unfold IP.parseContainer IP.tryClose IP.tryOpen
    simp only [hclose]
    simp [orElse, Opener.fromToken, bind, Except.bind]
  unfold IP.parseToken
  simp only [orElse, h1, h2, h3, h4, h5, h6, bind, Except.bind]
  rfl

/-- **C26.** When the scanner delivers a run of `n ≥ 2` hyphens (outside verbatim), exactly the
events of `m` em dashes followed by `k` en dashes are added, covering the run without gaps, where
`m` and `k` are as `Dashes` demands. -/
theorem C26_dash_runs (p : IP) (n s : Nat) (hn : 2 ≤ n) (hv : p.verbatim = none)
    (ha : p.attributes = none) (hsp : p.input.span = ⟨s, s + n⟩) :
    ∃ m k p', Dashes n m k ∧ p.parseToken ⟨.seq .hyphen, n⟩ = .ok (p', .cont) ∧
      p'.events = p.events ++ atoms .emDash 3 s m ++ atoms .enDash 2 (s + 3 * m) k ∧
      p'.openers = p.openers := by
  obtain ⟨m, k, h, hd⟩ := dashes_ok n hn
  refine ⟨m, k, (p.repeatAtom .emDash 3 m).repeatAtom .enDash 2 k, hd, ?_, ?_⟩
  · rw [parseToken_seq p .hyphen n (by decide) hv ha]
    unfold IP.parseAtom
    simp only [reduceCtorEq, if_false, true_and, hn, if_true, h, bind, Except.bind, pure, Except.pure,
      Lex.Kind.seq.injEq]
  · rw [repeatAtom_eq, repeatAtom_eq, hsp]
    simp

/-- **C27.** When the scanner delivers a run of `n` periods (outside verbatim), exactly the events of
`n / 3` ellipses and one text event for the remaining `n % 3` periods are added. (An empty text
event is skipped when events are emitted.) -/
theorem C27_period_runs (p : IP) (n s : Nat) (hv : p.verbatim = none)
    (ha : p.attributes = none) (hsp : p.input.span = ⟨s, s + n⟩) :
    ∃ p', p.parseToken ⟨.seq .period, n⟩ = .ok (p', .cont) ∧
      p'.events = p.events ++ atoms .ellipsis 3 s (n / 3) ++ [⟨.str, ⟨s + n - n % 3, s + n⟩⟩] ∧
      p'.openers = p.openers := by
  have hlen : p.input.span.len = n := by rw [hsp]; simp [Span.len]
  refine ⟨(p.ellipses (n / 3)).push .str, ?_, ?_⟩
  · rw [parseToken_seq p .period n (by decide) hv ha]
    unfold IP.parseAtom
    rw [hlen]
    simp [bind, Except.bind, pure, Except.pure]
  · rw [ellipses_eq, hsp]
    simp only [IP.push, IP.pushSp, and_true]
    rw [show s + 3 * (n / 3) = s + n - n % 3 by omega]

/-- **C26, C27**, scanning: the run the scanner delivers is the maximal run of hyphens (a hyphen
directly before `}` is a closing delimiter, not part of the run). -/
theorem C26_hyphen_run_scanned (v : Bool) (n : Nat) (rest : Bytes) (h0 : 0 < n)
    (h1 : rest.head? ≠ some (c! '-')) (h2 : rest.head? ≠ some (c! '}')) :
    Lex.tokenAt false v (List.replicate n (c! '-') ++ rest) = (some ⟨.seq .hyphen, n⟩, false) := by
  have key : ∀ m, Lex.hyphens (List.replicate m (c! '-') ++ rest) = m := by
    intro m
    induction m with
    | zero =>
      cases rest with
      | nil => rfl
      | cons c r =>
        simp at h1
        simp only [List.replicate_zero, List.nil_append]
        unfold Lex.hyphens
        split
        · rename_i heq; injection heq with h _; exact absurd h h1
        · rfl
    | succ m ih =>
      rw [List.replicate_succ, List.cons_append]
      show (if _ then _ else _) = _
      rw [ih, if_neg]
      · omega
      · cases m with
        | zero => simpa using h2
        | succ m => simp [List.replicate_succ]
  obtain ⟨m, rfl⟩ : ∃ m, n = m + 1 := ⟨n - 1, by omega⟩
  have hh : (List.replicate m (c! '-') ++ rest).head? ≠ some (c! '}') := by
    cases m with
    | zero => simpa using h2
    | succ m => simp [List.replicate_succ]
  rw [List.replicate_succ, List.cons_append]
  unfold Lex.tokenAt Lex.countWhile
  simp only [Bool.false_eq_true, if_false, List.takeWhile_cons]
  rw [show Lex.isSpecial (c! '-') = true by decide]
  simp only [Bool.not_true, Bool.false_eq_true, if_false, List.length_nil, Nat.lt_irrefl]
  unfold Lex.specialTok
  rw [key, if_neg hh]
  simp [Nat.add_comm]

/-- **C27**, scanning: the run the scanner delivers is the maximal run of periods. -/
theorem C27_period_run_scanned (v : Bool) (n : Nat) (rest : Bytes) (h0 : 0 < n)
    (h1 : rest.head? ≠ some (c! '.')) :
    Lex.tokenAt false v (List.replicate n (c! '.') ++ rest) = (some ⟨.seq .period, n⟩, false) := by
  have key : ∀ m, Lex.countWhile (· == (c! '.')) (List.replicate m (c! '.') ++ rest) = m := by
    intro m
    unfold Lex.countWhile
    rw [List.takeWhile_append_of_pos (by simp)]
    cases rest with
    | nil => simp
    | cons c r => simp at h1; simp [h1]
  obtain ⟨m, rfl⟩ : ∃ m, n = m + 1 := ⟨n - 1, by omega⟩
  rw [List.replicate_succ, List.cons_append]
  unfold Lex.tokenAt
  have hcw : Lex.countWhile (fun c => !Lex.isSpecial c) ((c! '.') :: (List.replicate m (c! '.') ++ rest)) = 0 := by
    unfold Lex.countWhile
    rw [List.takeWhile_cons, show Lex.isSpecial (c! '.') = true by decide]
    rfl
  simp only [Bool.false_eq_true, if_false, hcw, Nat.lt_irrefl]
  unfold Lex.specialTok
  rw [key]
  simp [Nat.add_comm]

/- Concrete cases. -/
example : Dashes 7 1 2 := ⟨rfl, by decide, by decide, by intro _ _ m' k'; omega⟩
example : ∃ p : IP, p.verbatim = none ∧ p.attributes = none ∧ p.input.span = ⟨1, 1 + 7⟩ :=
  ⟨{ input := { src := b! "a-------b", span := ⟨1, 8⟩ } }, rfl, rfl, rfl⟩

end Jotdown.Inline
