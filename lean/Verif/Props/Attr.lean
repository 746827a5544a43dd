import Verif.Proofs.AttrRun
import Verif.Spec.Attr
/-! # Properties of attribute parsing: C01, C02, C04, C40, C41 -/
namespace Jotdown.Attr
open Jotdown

/-- C01: `Attributes::try_from` never panics; an error position is within the input without its
trailing whitespace. -/
theorem C01_attr_total (s : Bytes) (hs : Utf8 s) :
    ∃ r, tryFrom s = .ok r ∧ ∀ n, r = .error n → n ≤ (trimEnd s).length := by
  cases h : frun (⟨[], .start⟩, []) (trimEnd s) with
  | none =>
    obtain ⟨i, hi, h2, _⟩ := parseAttributes_none hs.bd hs.safe h
    exact ⟨_, h2, fun n hn => by cases hn; omega⟩
  | some x =>
    refine ⟨_, parseAttributes_some hs.bd hs.safe h, fun n hn => ?_⟩
    split at hn
    · cases hn
    · cases hn; omega

/-- Not vacuous: a non-ASCII input, and both outcomes occur. -/
example : Utf8 (b! "{é") ∧ tryFrom (b! "{é") = .ok (.error 1) ∧
    tryFrom (b! "{.a k=\"é\"}") = .ok (.ok [(.cls, b! "a"), (.pair (b! "k"), b! "é")]) :=
  ⟨⟨['{', 'é'], by decide +kernel⟩, by decide +kernel, by decide +kernel⟩

theorem nextSt_done (st : State) (c : UInt8) : nextSt st c = .done → c = c! '}' := by
  revert c; apply ofFin; cases st <;> decide +kernel

theorem nextSt_text_ne_invalid (st : State) (c : UInt8) :
    (st = .comment ∨ st = .valueQuoted ∨ st = .valueContinued) → nextSt st c ≠ .invalid := by
  revert c; apply ofFin; cases st <;> decide +kernel

theorem noTrailingWs_trimEnd {s : Bytes} (h : NoTrailingWs s) : trimEnd s = s := by
  rcases List.eq_nil_or_concat s with h0 | ⟨l, c, rfl⟩
  · subst h0; rfl
  · rw [List.concat_eq_append]; apply trimEnd_concat
    apply h; simp

/-- C02: when `try_from` fails at a position `n` (before the trailing whitespace), the input up to
`n` can be completed to valid attributes, and no valid attributes without trailing whitespace start
with the input up to and including byte `n`. -/
theorem C02_attr_error_exact (s : Bytes) (hs : Utf8 s) (n : Nat) (h : tryFrom s = .ok (.error n)) :
    (∃ ext, Utf8 (s.take n ++ ext) ∧ Accepts (s.take n ++ ext)) ∧
    (n < (trimEnd s).length → ∀ ext, Utf8 (s.take (n + 1) ++ ext) →
      NoTrailingWs (s.take (n + 1) ++ ext) → ¬ Accepts (s.take (n + 1) ++ ext)) := by
  have htake : ∀ k, k ≤ (trimEnd s).length → s.take k = (trimEnd s).take k := by
    intro k hk
    conv => rhs; rw [trimEnd_take]
    rw [List.take_take, Nat.min_eq_left hk]
  -- the prefix is valid and ends at a character boundary
  have key : n ≤ (trimEnd s).length ∧
      (∃ q ct, frun (⟨[], .start⟩, []) (s.take n) = some (q, ct)) ∧
      (n < (trimEnd s).length → frun (⟨[], .start⟩, []) (s.take (n + 1)) = none) := by
    cases hf : frun (⟨[], .start⟩, []) (trimEnd s) with
    | none =>
      obtain ⟨i, hi, h2, h3, h4⟩ := parseAttributes_none hs.bd hs.safe hf
      have hin : i = n := by
        have : parseAttributes [] s = .ok (.error n) := h
        rw [h2] at this; injection this with h5; injection h5
      subst hin
      refine ⟨by omega, by rw [htake _ (by omega)]; exact h3, fun _ => by rw [htake _ (by omega)]; exact h4⟩
    | some x =>
      obtain ⟨q, ct⟩ := x
      have h2 := parseAttributes_some hs.bd hs.safe hf
      have : parseAttributes [] s = .ok (.error n) := h
      rw [h2] at this
      injection this with h3
      split at h3
      · cases h3
      · injection h3 with h3
        subst h3
        refine ⟨Nat.le_refl _, ⟨q, ct, by rw [htake _ (Nat.le_refl _), List.take_length]; exact hf⟩, fun hlt => absurd hlt (by omega)⟩
  obtain ⟨hn, ⟨q, ct, hq⟩, hnone⟩ := key
  have hlen := trimEnd_length_le s
  refine ⟨?_, ?_⟩
  · -- completion
    have hqi : q.state ≠ .invalid := frun_state_ne_invalid hq (by simp)
    obtain ⟨ext, hasc, htr, hne, q', ct', hr, hd⟩ := completion q ct hqi
    have hutf : Utf8 (s.take n) := by
      refine (hs.split n ?_).1
      by_cases hlt : n < (trimEnd s).length
      · -- the next byte is rejected, so it is no continuation byte in the middle of a character
        intro c hc
        have hh := hnone hlt
        have hc' : s[n]? = some c := by simpa using hc
        have hsucc : s.take (n + 1) = s.take n ++ [c] := by
          rw [List.take_add_one, hc']; rfl
        rw [hsucc, frun_append, hq] at hh
        simp at hh
        -- previous byte is ASCII or the start
        by_cases h0 : n = 0
        · subst h0
          have := hs.bd
          exact this c (by simpa using hc)
        · obtain ⟨m, rfl⟩ : ∃ m, n = m + 1 := ⟨n - 1, by omega⟩
          obtain ⟨d, hd1⟩ : ∃ d, s[m]? = some d := by
            have : m < s.length := by omega
            exact ⟨_, List.getElem?_eq_getElem this⟩
          have hsucc2 : s.take (m + 1) = s.take m ++ [d] := by
            rw [List.take_add_one, hd1]; rfl
          rw [hsucc2, frun_append] at hq
          cases hx : frun (⟨[], .start⟩, []) (s.take m) with
          | none => simp [hx] at hq
          | some x =>
            rw [hx] at hq
            simp [fstep] at hq
            have hst := (pureStep_state hq).1
            have hsaf := (hs.safe.drop m)
            have hdr : s.drop m = d :: s.drop (m + 1) := by
              rw [List.drop_eq_getElem?_toList_append, hd1]; rfl
            rw [hdr] at hsaf
            by_cases hd128 : d < 128
            · have := hsaf.1 hd128
              exact this c (by simpa using hc)
            · rcases nextSt_cases (if x.1.state = .done then Parser.mk x.1.attrs .start else x.1).state d with h | h | h | h | h
              · rw [← hst] at h; exact absurd h (frun_state_ne_invalid (x := x) (y := (q, ct)) (cs := [d]) (by simp [fstep, hq]) (frun_state_ne_invalid hx (by simp)))
              · exact absurd h hd128
              all_goals
                have hqs := h.1
                rw [← hst] at hqs
                exfalso
                have hnd : q.state ≠ .done := by rw [hqs]; simp
                simp only [fstep, hnd, if_false] at hh
                have hnn : nextSt q.state c ≠ .invalid := by
                  rw [hqs]
                  exact nextSt_text_ne_invalid _ c (by simp)
                simp only [pureStep] at hh
                rw [if_neg hnn] at hh
                split at hh <;> simp at hh
      · have hneq : n = (trimEnd s).length := by omega
        obtain ⟨w, hw, hws⟩ := trimEnd_spec s
        have hdw : s.drop n = w := by
          rw [hneq]; conv => lhs; arg 2; rw [hw]
          rw [List.drop_left' rfl]
        rw [hdw]
        cases w with
        | nil => simp
        | cons c w => exact Bd_of_lt (isWs_lt (hws c (by simp)))
    have hutf2 : Utf8 (s.take n ++ ext) := hutf.append (utf8_ascii hasc)
    refine ⟨ext, hutf2, q'.attrs, ?_⟩
    have htrim : trimEnd (s.take n ++ ext) = s.take n ++ ext := by
      by_cases he : ext = []
      · -- the prefix is complete
        have hqd : q.state = .done := by
          cases hh : q.state <;> first | rfl | exact absurd he (hne (by rw [hh]; simp))
        subst he
        rw [List.append_nil]
        rcases List.eq_nil_or_concat (s.take n) with h0 | ⟨l, c, hl⟩
        · rw [h0]; rfl
        · rw [List.concat_eq_append] at hl
          rw [hl] at hq ⊢
          apply trimEnd_concat
          rw [frun_append] at hq
          cases hx : frun (⟨[], .start⟩, []) l with
          | none => simp [hx] at hq
          | some x =>
            rw [hx] at hq
            simp [fstep] at hq
            have hst := (pureStep_state hq).1
            rw [hqd] at hst
            revert hst
            generalize (if x.1.state = .done then Parser.mk x.1.attrs .start else x.1).state = st0
            intro hst
            rw [nextSt_done _ _ hst.symm]; decide
      · rw [trimEnd_append_ne (by rw [htr]; exact he), htr]
    show parseAttributes [] _ = _
    rw [parseAttributes_ok_iff hutf2.bd hutf2.safe, htrim, frun_append, hq]
    refine ⟨ct', ?_⟩
    rw [Option.bind_some, hr]
    cases q'; simp_all
  · intro hlt ext hu htr ⟨a, ha⟩
    have ha' : parseAttributes [] (s.take (n + 1) ++ ext) = .ok (.ok a) := ha
    rw [parseAttributes_ok_iff hu.bd hu.safe, noTrailingWs_trimEnd htr, frun_append, hnone hlt] at ha'
    simp at ha'

/-- Not vacuous: errors inside the input occur, also after a complete set. -/
example : tryFrom (b! "{.a $}") = .ok (.error 4) ∧ 4 < (trimEnd (b! "{.a $}")).length ∧
    tryFrom (b! "{.a}x") = .ok (.error 4) ∧ tryFrom (b! "{.a ") = .ok (.error 3) :=
  ⟨by decide +kernel, by decide +kernel, by decide +kernel, by decide +kernel⟩

/-- C04: adjacent attribute sets concatenate. -/
theorem C04_attr_concat (a b : Bytes) (ha : Utf8 a) (hb : Utf8 b) (x y : Attributes)
    (hta : NoTrailingWs a) (hx : Parses a x) (hy : Parses b y) : Parses (a ++ b) (x ++ y) := by
  have hx' : parseAttributes [] a = .ok (.ok x) := hx
  have hy' : parseAttributes [] b = .ok (.ok y) := hy
  rw [parseAttributes_ok_iff ha.bd ha.safe, noTrailingWs_trimEnd hta] at hx'
  rw [parseAttributes_ok_iff hb.bd hb.safe] at hy'
  obtain ⟨ct, h1⟩ := hx'
  obtain ⟨ct2, h2⟩ := hy'
  have hne : trimEnd b ≠ [] := by
    intro h; rw [h] at h2; simp at h2
  have hab := ha.append hb
  show parseAttributes [] _ = _
  rw [parseAttributes_ok_iff hab.bd hab.safe, trimEnd_append_ne hne, frun_append, h1, Option.bind_some,
    frun_done_start _ _ [] _ hne]
  have := frun_prefix x ⟨[], .start⟩ [] (trimEnd b) (by simp [needLast])
  simp only [List.append_nil] at this
  rw [this, h2]
  exact ⟨ct2, rfl⟩

/-- Not vacuous. -/
example : Parses (b! "{.a}") [(.cls, b! "a")] ∧ Parses (b! "{#b k=v}{%c%}\n") [(.id, b! "b"), (.pair (b! "k"), b! "v"), (.comment, b! "c")] ∧
    NoTrailingWs (b! "{.a}") := by
  refine ⟨by unfold Parses; decide +kernel, by unfold Parses; decide +kernel, ?_⟩
  intro c hc; simp at hc; subst hc; decide

/-! ## Validators -/

theorem validatorParse_shift (st : State) (n : Nat) (s : Bytes) :
    validatorParse st n s = (validatorParse st 0 s).map
      (fun r => ((match r.1 with | none => none | some 0 => some 0 | some (k + 1) => some (n + k + 1)), r.2)) := by
  induction s generalizing st n with
  | nil => rfl
  | cons c s ih =>
    unfold validatorParse
    cases hs : st.step c with
    | error e => rfl
    | ok st' =>
      simp only [Bind.bind, Except.bind]
      split
      · rfl
      · split
        · rfl
        · rw [ih st' (n + 1), ih st' (0 + 1)]
          cases validatorParse st' 0 s with
          | error e => rfl
          | ok r =>
            obtain ⟨r, s'⟩ := r
            cases r with
            | none => rfl
            | some k => cases k with
              | zero => rfl
              | succ k => simp only [Except.map]; congr 3; omega

theorem validatorParse_cons (st : State) (n : Nat) (c : UInt8) (cs : Bytes) :
    validatorParse st n (c :: cs) = (do
      let st' ← st.step c
      if st' = .done then pure (some (n + 1), st')
      else if st' = .invalid then pure (some 0, st')
      else validatorParse st' (n + 1) cs) := rfl

theorem validatorParse_append (st : State) (n : Nat) (a b : Bytes) :
    validatorParse st n (a ++ b) = (do
      let (r, st') ← validatorParse st n a
      match r with
      | none => validatorParse st' (n + a.length) b
      | some k => pure (some k, st')) := by
  induction a generalizing st n with
  | nil => rfl
  | cons c a ih =>
    simp only [List.cons_append, validatorParse_cons]
    cases hs : st.step c with
    | error e => rfl
    | ok st' =>
      simp only [Bind.bind, Except.bind]
      split
      · rfl
      · split
        · rfl
        · rw [ih st' (n + 1)]
          simp only [Bind.bind, Except.bind, List.length_cons]
          have : n + 1 + a.length = n + (a.length + 1) := by omega
          rw [this]

theorem feedPieces_eq (st : State) (n : Nat) (ps : List Bytes) :
    feedPieces st n ps = (validatorParse st n ps.flatten).map (·.1) := by
  induction ps generalizing st n with
  | nil => rfl
  | cons p ps ih =>
    rw [List.flatten_cons, validatorParse_append]
    unfold feedPieces
    rw [validatorParse_shift st n p]
    cases validatorParse st 0 p with
    | error e => rfl
    | ok r =>
      obtain ⟨r, s'⟩ := r
      cases r with
      | none => simp only [Bind.bind, Except.bind, Except.map]; rw [ih]; rfl
      | some k => cases k with
        | zero => rfl
        | succ k => rfl

/-- C40: whether (and where) attributes spread over several pieces of text are recognised depends
only on the concatenation of the pieces. -/
theorem C40_attr_split_invariant (ps qs : List Bytes) (h : ps.flatten = qs.flatten) :
    feedPieces .start 0 ps = feedPieces .start 0 qs := by
  rw [feedPieces_eq, feedPieces_eq, h]

/-- Not vacuous: three different splits, recognised after 9 bytes. -/
example : feedPieces .start 0 [b! "{a=\"", b! "b\nc", b! "\"}x"] = .ok (some 9) ∧
    feedPieces .start 0 [b! "{a=\"b\nc\"}x"] = .ok (some 9) ∧
    feedPieces .start 0 [b! "{a", b! "$", b! "c"] = .ok (some 0) := by decide +kernel

/-- Final state of the plain automaton. -/
theorem validLoop_eq (st : State) (n : Nat) (s : Bytes) (hd : st ≠ .done) (hi : st ≠ .invalid) :
    ∃ st' k, validLoop st n s = .ok (st', k) ∧
      (st' = .done → ∃ m, k = n + m ∧ m ≤ s.length ∧ 0 < m ∧
        ∀ p ct, p.state = st → ∃ q ct', frun (p, ct) (s.take m) = some (q, ct') ∧ q.state = .done) ∧
      (st' ≠ .done → ∀ j, ∀ p ct q ct', p.state = st → frun (p, ct) (s.take j) = some (q, ct') → q.state ≠ .done) := by
  induction s generalizing st n with
  | nil =>
    refine ⟨st, n, rfl, fun h => absurd h hd, fun _ j p ct q ct' hp h => ?_⟩
    simp at h; rw [← h.1, hp]; exact hd
  | cons c s ih =>
    unfold validLoop
    rw [step_eq c hd hi]
    simp only [Bind.bind, Except.bind]
    have hfs : ∀ p ct, p.state = st → fstep (p, ct) c = pureStep p ct c := by
      intro p ct hp; simp [fstep, hp, hd]
    by_cases h1 : nextSt st c = .done
    · rw [if_pos (Or.inl h1)]
      refine ⟨_, _, rfl, fun _ => ⟨1, rfl, by simp, by simp, fun p ct hp => ?_⟩, fun h => absurd h1 h⟩
      simp only [List.take_succ_cons, List.take_zero, frun_cons, hfs p ct hp]
      cases hs : pureStep p ct c with
      | none =>
        unfold pureStep at hs
        rw [hp, if_neg (by rw [h1]; simp)] at hs
        split at hs <;> simp at hs
      | some x =>
        refine ⟨x.1, x.2, rfl, ?_⟩
        rw [(pureStep_state (q := x.1) (ct' := x.2) hs).1, hp, h1]
    by_cases h2 : nextSt st c = .invalid
    · rw [if_pos (Or.inr h2)]
      refine ⟨_, _, rfl, fun h => absurd h h1, fun _ j p ct q ct' hp h => ?_⟩
      cases j with
      | zero => simp at h; rw [← h.1, hp]; exact hd
      | succ j =>
        rw [List.take_succ_cons, frun_cons, hfs p ct hp] at h
        simp [pureStep, hp, h2] at h
    rw [if_neg (by simp [h1, h2])]
    obtain ⟨st', k, hk, hA, hB⟩ := ih (nextSt st c) (n + 1) h1 h2
    have hstep : ∀ p ct, p.state = st → ∃ x, pureStep p ct c = some x ∧ x.1.state = nextSt st c := by
      intro p ct hp
      cases hs : pureStep p ct c with
      | none =>
        unfold pureStep at hs
        rw [hp, if_neg h2] at hs
        split at hs <;> simp at hs
      | some x => exact ⟨x, rfl, by rw [(pureStep_state (q := x.1) (ct' := x.2) hs).1, hp]⟩
    refine ⟨st', k, hk, fun h => ?_, fun h j p ct q ct' hp hr => ?_⟩
    · obtain ⟨m, hm1, hm2, hm3, hm4⟩ := hA h
      refine ⟨m + 1, by omega, by simp; omega, by omega, fun p ct hp => ?_⟩
      obtain ⟨x, hx, hxs⟩ := hstep p ct hp
      rw [List.take_succ_cons, frun_cons, hfs p ct hp, hx]
      exact hm4 x.1 x.2 hxs
    · cases j with
      | zero => simp at hr; rw [← hr.1, hp]; exact hd
      | succ j =>
        obtain ⟨x, hx, hxs⟩ := hstep p ct hp
        rw [List.take_succ_cons, frun_cons, hfs p ct hp, hx] at hr
        exact hB h j x.1 x.2 q ct' hxs hr

/-- The last byte of an accepted prefix is `}`. -/
theorem last_of_done {p q : Parser} {ct ct' : Bytes} {s : Bytes} (hp : p.state ≠ .done)
    (h : frun (p, ct) s = some (q, ct')) (hd : q.state = .done) :
    ∃ l, s = l ++ [c! '}'] := by
  rcases List.eq_nil_or_concat s with h0 | ⟨l, c, rfl⟩
  · subst h0; simp at h; rw [← h.1] at hd; exact absurd hd hp
  · rw [List.concat_eq_append] at h ⊢
    rw [frun_append] at h
    cases hx : frun (p, ct) l with
    | none => simp [hx] at h
    | some x =>
      rw [hx] at h
      simp [fstep] at h
      have := (pureStep_state h).1
      rw [hd] at this
      rw [nextSt_done _ _ this.symm]
      exact ⟨l, rfl⟩

/-- C41: `valid` never panics; it returns a positive length `n` only if the first `n` bytes parse as
attributes, and 0 only if no prefix of the text (without trailing whitespace) does. -/
theorem C41_recognised_attrs_parse (s : Bytes) (hs : Utf8 s) :
    ∃ n, valid s = .ok n ∧ n ≤ s.length ∧ (0 < n → Accepts (s.take n)) ∧
      (n = 0 → ∀ k, NoTrailingWs (s.take k) → Utf8 (s.take k) → ¬ Accepts (s.take k)) := by
  obtain ⟨st', k, hk, hA, hB⟩ := validLoop_eq .start 0 s (by simp) (by simp)
  unfold valid
  rw [hk]
  simp only [Bind.bind, Except.bind]
  by_cases hd : st' = .done
  · rw [if_pos hd]
    obtain ⟨m, hm1, hm2, hm3, hm4⟩ := hA hd
    have hkm : k = m := by omega
    subst hkm
    refine ⟨k, rfl, hm2, fun _ => ?_, fun h => absurd h (by omega)⟩
    obtain ⟨q, ct', hr, hq⟩ := hm4 ⟨[], .start⟩ [] rfl
    obtain ⟨l, hl⟩ := last_of_done (by simp) hr hq
    have hb : Bd (s.take k) := by
      intro c hc
      apply hs.bd c
      cases s with
      | nil => simp at hc
      | cons d s => cases k with
        | zero => simp at hc
        | succ k => simpa using hc
    refine ⟨q.attrs, ?_⟩
    show parseAttributes [] _ = _
    rw [parseAttributes_ok_iff hb (hs.safe.take k)]
    refine ⟨ct', ?_⟩
    have : trimEnd (s.take k) = s.take k := by rw [hl]; exact trimEnd_concat (by decide)
    rw [this, hr]
    cases q with
    | mk a st => simp only at hq; rw [hq]
  · rw [if_neg hd]
    refine ⟨0, rfl, by omega, fun h => absurd h (by omega), fun _ j htr hu ⟨a, ha⟩ => ?_⟩
    have ha' : parseAttributes [] _ = .ok (.ok a) := ha
    rw [parseAttributes_ok_iff hu.bd hu.safe, noTrailingWs_trimEnd htr] at ha'
    obtain ⟨ct, hct⟩ := ha'
    exact hB hd j _ _ _ _ rfl hct rfl

/-- Not vacuous: a positive and a zero result. -/
example : valid (b! "{.a k=\"}\"} text {.b}") = .ok 10 ∧ valid (b! "{.a $} {.b}") = .ok 0 := by
  decide +kernel

end Jotdown.Attr
