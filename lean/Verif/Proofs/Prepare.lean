import Verif.Proofs.Starts
/-! # Helper lemmas: the lines of a block -/
namespace Jotdown.Block
open Jotdown

theorem meteredBlock_ok {src : Bytes} (hs : Safe src) {first : Span} {rest : List Span}
    (h : ∀ l ∈ first :: rest, SpanOk src l) :
    Sat Never (meteredBlock src first rest) (fun r => ∃ k n, r.2.2 = n + 1 ∧ n ≤ rest.length ∧
      identify (sliceOf src first) = .ok (k, r.2.1) ∧ Meas src k (rest.take n) r.1) := by
  unfold meteredBlock
  have hf := h first (by simp)
  rw [hf.slice]
  have hbs := sliceOf_bd_safe hf hs
  obtain ⟨⟨k, span⟩, hk, -⟩ := (identify_ok hbs.1 hbs.2).exists_ok
  simp only [Bind.bind, Except.bind, hk]
  refine Sat.bind (measure_ok hs k (fun l hl => h l (by simp [hl]))) ?_
  intro r hr
  exact Sat.ok ⟨k, r.2, rfl, hr.1, rfl, hr.2⟩

theorem hashes_take {s : Bytes} {n : Nat} (h : n = Lex.countWhile (· == c! '#') s) : s.take n = List.replicate n (c! '#') := by
  subst h
  induction s with
  | nil => rfl
  | cons x s ih =>
    rw [countWhile_cons]
    split
    · rename_i hx
      rw [Nat.add_comm, List.take_succ_cons, List.replicate_succ, ih]
      simp at hx
      rw [hx]
    · rfl

/-- Facts about the kind of a prepared block. -/
def KOk (src : Bytes) (b : Prepared) : Prop :=
  match b.kind with
  | .atom a => AtomOk src b.spanStart a
  | .fenced _ _ fk spec _ _ => fk = .div → spec.all Attr.isName = true
  | .listItem _ ty _ => TyOk ty ∧ (∀ c, ty = .task c → b.spanStart.start + 3 < src.length) ∧ b.ls ≠ [] ∧
      (ty = .description → trimEnd (sliceOf src b.spanStart) = sliceOf src b.spanStart)
  | .heading level => b.spanStart.stop = b.spanStart.start + level ∧ 1 ≤ level ∧
      sliceOf src b.spanStart = List.replicate level (c! '#')
  | .table .. => b.spanStart.start = b.spanStart.stop ∧ b.spanEnd.start = b.spanEnd.stop ∧ TabLines src b.ls
  | _ => True

structure PrepOk (src : Bytes) (first : Span) (rest : List Span) (b : Prepared) : Prop where
  cnt : 1 ≤ b.lineCount
  cntLe : b.lineCount ≤ (first :: rest).length
  ss : SpanOk src b.spanStart
  ssLo : first.start ≤ b.spanStart.start
  se : SpanOk src b.spanEnd
  seStop : b.spanEnd.stop = lastStop 0 ((first :: rest).take b.lineCount)
  lines : LinesOk src b.spanStart.stop b.ls b.spanEnd.start
  weight : weight b.ls + (if b.kind.shrinks then 1 else 0) ≤ weight ((first :: rest).take b.lineCount)
  kind : KOk src b
  begins : KindAt src b.kind b.spanStart
  full : b.kind.shrinks = true → Fulls src b.ls

theorem bd_of_sub {src : Bytes} {sp : Span} (h : SpanOk src sp) {n : Nat} (hn : n ≤ (sliceOf src sp).length)
    (hb : Bd ((sliceOf src sp).drop n)) : Bd (src.drop (sp.start + n)) := by
  rw [sliceOf_length h] at hn
  exact (h.advance hn hb).bs

theorem sliceOf_advance {src : Bytes} {sp : Span} {n : Nat} :
    sliceOf src ⟨sp.start + n, sp.stop⟩ = (sliceOf src sp).drop n := by
  unfold sliceOf
  simp only
  rw [List.drop_take, List.drop_drop]
  congr 1; omega

theorem attrOk_of_valid {src : Bytes} {sp : Span} (h : SpanOk src sp) (hs : Safe src)
    (hv : Attr.valid (sliceOf src sp) = .ok (trimEnd (sliceOf src sp)).length)
    (hd : (sliceOf src sp).head? = some (c! '{')) : AttrOk src sp := by
  have hbs := sliceOf_bd_safe h hs
  generalize hsl : sliceOf src sp = s at *
  unfold AttrOk
  rw [hsl]
  obtain ⟨st', k, hk, hA, -⟩ := Attr.validLoop_eq .start 0 s (by simp) (by simp)
  have hlen : 0 < (trimEnd s).length := by
    cases s with
    | nil => simp at hd
    | cons c cs =>
      simp at hd; subst hd
      obtain ⟨w, hw, hws⟩ := trimEnd_spec (c! '{' :: cs)
      cases ht : trimEnd (c! '{' :: cs) with
      | nil =>
        rw [ht] at hw
        have := hws (c! '{') (by rw [List.nil_append] at hw; rw [← hw]; simp)
        simp [isWs] at this
      | cons _ _ => simp
  unfold Attr.valid at hv
  rw [hk] at hv
  simp only [Bind.bind, Except.bind, pure, Except.pure, Except.ok.injEq] at hv
  by_cases hdone : st' = .done
  · rw [if_pos hdone] at hv
    obtain ⟨m, hm1, hm2, -, hm⟩ := hA hdone
    have hmk : m = (trimEnd s).length := by omega
    rw [hmk, ← trimEnd_take] at hm
    obtain ⟨q, ct, hq, hqd⟩ := hm ⟨[], .start⟩ [] rfl
    refine ⟨q.attrs, fun attrs => ?_⟩
    rw [Attr.parseAttributes_ok_iff hbs.1 hbs.2]
    have := Attr.frun_prefix attrs ⟨[], .start⟩ [] (trimEnd s) (by simp [Attr.needLast])
    simp only [List.append_nil] at this
    rw [this, hq]
    exact ⟨ct, by simp [hqd]⟩
  · rw [if_neg hdone] at hv; omega

theorem noneBlank_of_head {s : Bytes} {n : Nat} {c : UInt8} (h : (s.drop n).head? = some c) (hc : isWs c = false) :
    isBlank s = false := by
  unfold isBlank
  rw [List.all_eq_false]
  refine ⟨c, ?_, by simp [hc]⟩
  rw [List.head?_drop] at h
  exact List.mem_of_getElem? h

theorem trim_head {s : Bytes} {c : UInt8} (h : s.head? = some c) (hc : isWs c = false) : (trim s).head? = some c := by
  cases s with
  | nil => simp at h
  | cons d s =>
    simp at h; subst h
    unfold trim trimStart
    rw [List.dropWhile_cons, hc]
    simp only [Bool.false_eq_true, if_false]
    obtain ⟨w, hw, hws⟩ := trimEnd_spec (d :: s)
    cases ht : trimEnd (d :: s) with
    | nil =>
      rw [ht, List.nil_append] at hw
      have := hws d (by rw [← hw]; simp)
      rw [hc] at this; exact absurd this (by simp)
    | cons x xs =>
      rw [ht] at hw
      have := List.head_eq_of_cons_eq hw
      simp [this]

/-- Facts about the first line of a block. -/
structure FirstOk (src : Bytes) (first : Span) (k : Kind) (span : Span) : Prop where
  ss : SpanOk src ⟨span.start + first.start, span.stop + first.start⟩
  stop : span.stop + first.start ≤ first.stop
  kind : ∃ indent, IdentOk indent ((sliceOf src first).drop indent) k span ∧ indent ≤ (sliceOf src first).length

theorem first_ok {src : Bytes} (hs : Safe src) {first : Span} (h : SpanOk src first) {k : Kind} {span : Span}
    (hi : identify (sliceOf src first) = .ok (k, span)) : FirstOk src first k span := by
  have hbs := sliceOf_bd_safe h hs
  have hsl := sliceOf_length h
  obtain ⟨ho, hle⟩ := (identify_ok hbs.1 hbs.2).of_ok hi
  simp only at ho
  have hlen := ho.len
  have hge := ho.ge
  have hle' := ho.le
  simp only [List.length_drop] at hlen
  have hstop : span.stop ≤ (sliceOf src first).length := by omega
  have hbstop : Bd ((sliceOf src first).drop span.stop) := by
    have := ho.bd hge
    rw [List.drop_drop] at this
    rwa [show indentOf (sliceOf src first) + (span.stop - indentOf (sliceOf src first)) = span.stop by omega] at this
  have hbstart : Bd ((sliceOf src first).drop span.start) := by
    rcases ho.start with h0 | h0
    · rw [h0]; exact hbs.1
    · rw [h0]
      have := dropWhile_bd (p := fun c => isWs c && c != c! '\n') (by intro c hc; simp at hc; exact isWs_lt hc.1) hbs.1 hbs.2
      rw [dropWhile_drop] at this
      exact this.1
  have := h.le
  have := h.len
  refine ⟨⟨by simp; omega, by simp; omega, ?_, ?_⟩, by omega, indentOf (sliceOf src first), ho, hle⟩
  · simp only; rw [Nat.add_comm]; exact bd_of_sub h (by omega) hbstart
  · simp only; rw [Nat.add_comm span.stop]; exact bd_of_sub h (by omega) hbstop

theorem core_eq_atom {k : Kind} {a : Atom} (h : k.core = .atom a) : k = .atom a := by
  cases k <;> simp_all [Kind.core]

theorem getLast_lastStop (l : Span) (ls : List Span) (h : l :: ls ≠ []) (n : Nat) :
    ((l :: ls).getLast h).stop = lastStop n (l :: ls) := by
  unfold lastStop
  rw [List.getLast?_eq_some_getLast h]

theorem skipOuter_ok {src : Bytes} (hs : Safe src) {kind : Kind} {outerLen hi : Nat} {first : Span} {rest : List Span}
    (hf : SpanOk src first) (hnl : NlStop src first.stop) (hr : LinesOk src first.stop rest hi)
    (h1 : SpanOk src ⟨first.start + outerLen, first.stop⟩)
    (hh : ∀ level, kind = .heading level → ∀ l ∈ rest, ∃ r, identify (sliceOf src l) = .ok r ∧
      (r.1 = .paragraph ∨ r.1 = .heading level)) :
    Sat Never (skipOuter src kind outerLen first rest) (fun r => ∃ f rest', r = f :: rest' ∧
      SubSpan src ⟨first.start + outerLen, first.stop⟩ f ∧ Subs src rest rest' ∧ LinesOk src f.start r hi ∧
      (kind.shrinks = true → f.stop = first.stop) ∧
      (kind ≠ .blockquote → (∀ level, kind ≠ .heading level) → r = ⟨first.start + outerLen, first.stop⟩ :: rest) ∧
      (kind = .blockquote → rest' = rest ∧ (f = ⟨first.start + outerLen, first.stop⟩ ∨ (f = ⟨first.start + outerLen + 1, first.stop⟩ ∧
        first.start + outerLen < first.stop ∧ ∃ c, src[first.start + outerLen]? = some c ∧ c ≠ c! '\n')))) := by
  have hrefl : ∀ ls lo hi, LinesOk src lo ls hi → Subs src ls ls := by
    intro ls lo hi h
    induction h with
    | nil => exact .nil
    | cons s _ _ _ ih => exact .cons (.refl s) ih
  have hbase : Sat Never (.ok (⟨first.start + outerLen, first.stop⟩ :: rest) : R (List Span))
      (fun r => ∃ f rest', r = f :: rest' ∧
      SubSpan src ⟨first.start + outerLen, first.stop⟩ f ∧ Subs src rest rest' ∧ LinesOk src f.start r hi ∧
      (kind.shrinks = true → f.stop = first.stop) ∧
      (kind ≠ .blockquote → (∀ level, kind ≠ .heading level) → r = ⟨first.start + outerLen, first.stop⟩ :: rest) ∧
      (kind = .blockquote → rest' = rest ∧ (f = ⟨first.start + outerLen, first.stop⟩ ∨ (f = ⟨first.start + outerLen + 1, first.stop⟩ ∧
        first.start + outerLen < first.stop ∧ ∃ c, src[first.start + outerLen]? = some c ∧ c ≠ c! '\n')))) :=
    Sat.ok ⟨_, _, rfl, .refl h1, hrefl _ _ _ hr, .cons h1 (Nat.le_refl _) hnl hr, fun _ => rfl, fun _ _ => rfl, fun _ => ⟨rfl, Or.inl rfl⟩⟩
  unfold skipOuter
  dsimp only
  cases kind
  case blockquote =>
    dsimp only
    split
    · rename_i hlt
      have hlen := hf.len
      have hi : idx src (first.start + outerLen) = .ok (src[first.start + outerLen]'(by omega)) := by
        unfold idx
        rw [List.getElem?_eq_getElem (by omega)]
      rw [hi]
      dsimp only [Bind.bind, Except.bind]
      split
      · rename_i hc
        have hsub : SpanOk src ⟨first.start + outerLen + 1, first.stop⟩ := by
          refine ⟨by simp; omega, h1.len, ?_, h1.be⟩
          refine Safe.bd_after hs (List.getElem?_eq_getElem (by omega)) ?_
          rcases hc with hc | hc <;> rw [hc] <;> decide
        exact Sat.ok ⟨_, _, rfl, ⟨hsub, by simp, by simp⟩, hrefl _ _ _ hr, .cons hsub (Nat.le_refl _) hnl hr,
          fun _ => rfl, by simp, fun _ => ⟨rfl, Or.inr ⟨rfl, hlt, _, List.getElem?_eq_getElem (by omega), by
            rcases hc with hc | hc <;> rw [hc] <;> decide⟩⟩⟩
      · exact hbase
    · exact hbase
  case heading level =>
    simp only [mapTail]
    have hm : Sat Never (mapLines (headingLine src level) rest) (fun r => LinesOk src first.stop r hi ∧ Subs src rest r) := by
      have hh' := hh level rfl
      clear hbase hh h1
      clear hnl
      generalize first.stop = lo at hr
      induction hr with
      | nil h => exact Sat.ok ⟨.nil h, .nil⟩
      | cons s l nl _ ih =>
        unfold mapLines
        refine Sat.bind (headingLine_ok hs s (hh' _ (by simp))) ?_
        intro r ⟨hr, hst⟩
        refine Sat.bind (ih (fun l hl => hh' l (by simp [hl]))) ?_
        intro rs hrs
        exact Sat.ok ⟨.cons hr.ok (by have := hr.start; omega) (by rw [hst]; exact nl) (hrs.1.mono hr.stop (Nat.le_refl _)), .cons hr hrs.2⟩
    refine Sat.bind hm ?_
    intro r hr
    exact Sat.ok ⟨_, _, rfl, .refl h1, hr.2, .cons h1 (Nat.le_refl _) hnl hr.1, fun _ => rfl, by simp, by simp⟩
  all_goals exact hbase

theorem getLast_snoc {α : Type} (l : List α) (a : α) (h : l ++ [a] ≠ []) : (l ++ [a]).getLast h = a := by simp

theorem skipFence_true {i fl : Nat} {fk : FenceKind} {s : Bytes} {n : Option (UInt8 × Nat)} (f : Span) (init : List Span)
    (last : Span) : skipFence (.fenced i fl fk s true n) (f :: (init ++ [last])) = .ok init := by
  simp [skipFence, csub, Bind.bind, Except.bind, pure, Except.pure]

theorem prepare_ok {src : Bytes} (hs : Safe src) {lo hi : Nat} {first : Span} {rest : List Span}
    (h : LinesOk src lo (first :: rest) hi) (hfull : Fulls src (first :: rest)) : Sat Never (prepare src first rest) (PrepOk src first rest) := by
  unfold prepare
  refine Sat.bind (meteredBlock_ok hs (fun l hl => h.mem hl)) ?_
  intro ⟨kind, span, cnt⟩ ⟨k, n, hn, hnr, hid, hmeas⟩
  simp only at hn hid hmeas
  subst hn
  have hf := h.mem (l := first) (by simp)
  obtain ⟨hss, hstop, indent, hio, hind⟩ := first_ok hs hf hid
  have hcore := hmeas.core
  obtain ⟨hbeg, hnonl⟩ := kindAt_of hs hf (hfull _ (by simp)) hid hcore
  simp only [List.take_succ_cons]
  have hko := hio.kind
  refine Sat.bind (trimTable_ok (k := kind) (l := first) (ls := rest.take n) ?_ ?_) ?_
  · intro m hm
    refine h.mem ?_
    rcases List.mem_cons.1 hm with rfl | hm
    · simp
    · exact List.mem_cons_of_mem _ (List.mem_of_mem_take hm)
  · intro hk
    rw [hk] at hcore
    cases k <;> simp [Kind.core] at hcore
    exact noneBlank_of_head hko.2.2.2 (by decide)
  rintro ls ⟨m, rfl, hm1, hm2⟩
  simp only
  have hmn : (rest.take n).take m = rest.take m := by
    rw [List.take_take, Nat.min_eq_left (by simp at hm2; omega)]
  rw [hmn]
  have hmr : m ≤ rest.length := by simp at hm2; omega
  have hls : LinesOk src lo (first :: rest.take m) (lastStop 0 (first :: rest.take m)) := by
    have := (h.take_drop (m + 1)).1
    rw [List.take_succ_cons, lastStop_cons] at this
    rw [lastStop_cons]; exact this
  have htl : LinesOk src first.stop (rest.take m) (lastStop 0 (first :: rest.take m)) := by
    cases hls with
    | cons _ _ _ h => exact h
  have hnl : NlStop src first.stop := by
    cases hls with
    | cons _ _ h _ => exact h
  have hend := getLast_lastStop first (rest.take m) (by simp) 0
  generalize hE : (first :: rest.take m).getLast (by simp) = endLine at hend
  have hendok : SpanOk src endLine := by rw [← hE]; exact hls.mem (List.getLast_mem _)
  have houter : csub (span.stop + first.start) first.start = .ok span.stop := by
    unfold csub; rw [if_pos (by omega)]; simp
  rw [houter]
  simp only [show ∀ (f : Nat → R Prepared), (Except.ok span.stop >>= f) = f span.stop from fun _ => rfl]
  have hkcore : ∀ level, kind = .heading level → k = .heading level := by
    intro level hk; rw [hk] at hcore; cases k <;> simp_all [Kind.core]
  refine Sat.bind (skipOuter_ok hs (hi := lastStop 0 (first :: rest.take m)) hf hnl htl ?_ ?_) ?_
  · have := hss.at_stop
    refine ⟨by simp; omega, hf.len, ?_, hf.be⟩
    have := hss.be
    simpa [Nat.add_comm] using this
  · intro level hk l hl
    rw [hkcore level hk] at hmeas
    refine hmeas.heading l ?_
    have hmm : m = n := by
      have := hm1 (by rw [hk]; simp)
      simp at this; omega
    rw [← hmm]; exact hl
  rintro ls' ⟨f, rest', rfl, hsub, hsubs, hlok, hfst, hrest, hquote⟩
  have hlines : LinesOk src (span.stop + first.start) (f :: rest') (lastStop 0 (first :: rest.take m)) := by
    cases hlok with
    | cons a b nl c => exact .cons a (by have := hsub.start; simp at this; omega) nl c
  have hw : weight (f :: rest') + span.stop ≤ weight (first :: rest.take m) := by
    have h1 := hsubs.weight
    have h2 := hsub.start
    have h3 := hsub.stop
    have h4 := hsub.ok.le
    simp only [weight_cons, Span.len] at *
    omega
  have hlen : (first :: rest.take m).length = m + 1 := by simp; omega
  have htake : (first :: rest).take (first :: rest.take m).length = first :: rest.take m := by
    rw [hlen, List.take_succ_cons]
  have hfulltl : Fulls src (rest.take m) := fun l hl => hfull l (List.mem_cons_of_mem _ (List.mem_of_mem_take hl))
  have hfullf : kind.shrinks = true → (∀ i fl fk spec c n, kind ≠ .fenced i fl fk spec c n) → Fulls src (f :: rest') := by
    intro hk hnf
    obtain ⟨g1, g2⟩ := hnonl hk hnf
    have hadv : Full src ⟨first.start + span.stop, first.stop⟩ := (hfull _ (by simp)).advance g1 g2
    by_cases hq : kind = .blockquote
    · obtain ⟨rfl, rfl | ⟨rfl, hlt, c, hc1, hc2⟩⟩ := hquote hq
      · intro l hl
        rcases List.mem_cons.1 hl with rfl | hl
        · exact hadv
        · exact hfulltl l hl
      · intro l hl
        rcases List.mem_cons.1 hl with rfl | hl
        · have hsl : (sliceOf src ⟨first.start + span.stop, first.stop⟩).take 1 = [c] := by
            unfold sliceOf
            simp only
            obtain ⟨g3, g4⟩ := List.getElem?_eq_some_iff.1 hc1
            rw [List.drop_eq_getElem_cons g3, g4]
            obtain ⟨j, hj⟩ : ∃ j, first.stop - (first.start + span.stop) = j + 1 := ⟨first.stop - (first.start + span.stop) - 1, by omega⟩
            rw [hj]; simp
          refine hadv.advance (n := 1) ?_ ?_
          · rw [hsl]; simpa using fun h => hc2 h.symm
          · have := congrArg List.length hsl
            simp only [List.length_take, List.length_singleton] at this
            omega
        · exact hfulltl l hl
    · rw [hrest hq (by intro level hl; rw [hl] at hk; simp [Kind.shrinks] at hk)]
      intro l hl
      rcases List.mem_cons.1 hl with rfl | hl
      · exact hadv
      · exact hfulltl l hl
  -- the end of a block that has no closing fence
  have hcommon : ∀ (hx : endSpan kind endLine = ⟨endLine.stop, endLine.stop⟩) (hsf : skipFence kind (f :: rest') = .ok (f :: rest'))
      (hsh : kind.shrinks = true → 1 ≤ span.stop) (hnf : ∀ i fl fk spec c n, kind ≠ .fenced i fl fk spec c n)
      (hK : KOk src ⟨kind, ⟨span.start + first.start, span.stop + first.start⟩, endSpan kind endLine, span.stop, f :: rest', (first :: rest.take m).length⟩),
      Sat Never (do
        let ls' ← skipFence kind (f :: rest')
        pure (⟨kind, ⟨span.start + first.start, span.stop + first.start⟩, endSpan kind endLine, span.stop, ls',
          (first :: rest.take m).length⟩ : Prepared)) (PrepOk src first rest) := by
    intro hx hsf hsh hnf hK
    rw [hsf]
    refine Sat.ok ⟨by simp, by simp; omega, hss, by simp, ?_, ?_, ?_, ?_, hK, hbeg, fun hk => hfullf hk hnf⟩
    · simp only [hx]; exact hendok.at_stop
    · simp only [hx, htake]; rw [hend]
    · simp only [hx]; rw [hend]; exact hlines
    · simp only [htake]
      split
      · have := hsh (by assumption); omega
      · omega
  have hattr : span.start + first.start = first.start + span.start := by omega
  cases kind with
  | atom a =>
    refine hcommon rfl rfl (by simp [Kind.shrinks]) (by simp) ?_
    have hk : k = .atom a := core_eq_atom hcore.symm
    unfold KOk
    simp only
    have hat : ∀ o, Opens (.atom a) o → (∀ o', Opens (.atom a) o' → o' = o) →
        Syntax.Begins src (span.start + first.start) (span.stop + first.start) o := by
      intro o ho hu
      rcases hbeg with ⟨h1, -⟩ | ⟨p, o', -, h2, h3, h4⟩
      · simp at h1
      · have hp := h4 (by simp)
        rw [hu o' h3, hp] at h2
        exact h2
    cases a <;> simp only [AtomOk]
    · exact hat _ .blank (by intro o h; cases h; rfl)
    rotate_left
    · exact hat _ .thematicBreak (by intro o h; cases h; rfl)
    subst hk
    obtain ⟨h1, h2, h3⟩ := hko
    have hslice : sliceOf src ⟨span.start + first.start, span.stop + first.start⟩ = (sliceOf src first).drop indent := by
      rw [← sliceOf_advance, h1]
      have hsl := sliceOf_length hf
      have := hf.le
      simp only [List.length_drop]
      congr 2
      · omega
      · omega
    refine attrOk_of_valid hss hs ?_ ?_
    · rw [hslice]; exact h2
    · rw [hslice]; exact h3
  | paragraph => exact hcommon rfl rfl (by simp [Kind.shrinks]) (by simp) trivial
  | heading level =>
    refine hcommon rfl rfl (by simp [Kind.shrinks]) (by simp) ?_
    cases k <;> simp [Kind.core] at hcore
    subst hcore
    obtain ⟨h1, h2, h3, -⟩ := hko
    show span.stop + first.start = span.start + first.start + _ ∧ _
    refine ⟨by rw [h2]; simp only; omega, h1, ?_⟩
    have hslice : sliceOf src ⟨span.start + first.start, span.stop + first.start⟩ = ((sliceOf src first).drop indent).take level := by
      have h4 := Lex.countWhile_le (· == c! '#') ((sliceOf src first).drop indent)
      rw [← h3, List.length_drop, sliceOf_length hf] at h4
      rw [h2]
      unfold sliceOf
      simp only
      rw [List.drop_take, List.take_take, List.drop_drop, Nat.min_eq_left h4]
      congr 1
      · omega
      · congr 1; omega
    rw [hslice]
    exact hashes_take h3
  | definition i fn label lb =>
    refine hcommon rfl rfl ?_ (by simp) trivial
    intro _
    cases k <;> simp [Kind.core] at hcore
    have := hko.2.2.2; omega
  | blockquote =>
    refine hcommon rfl rfl ?_ (by simp) trivial
    intro _
    cases k <;> simp [Kind.core] at hcore
    have h2 : span = ⟨indent, indent + 1⟩ := hko
    rw [h2]; simp
  | listItem i ty lb =>
    cases k <;> simp [Kind.core] at hcore
    rename_i i' ty' lb'
    obtain ⟨rfl, rfl⟩ := hcore
    obtain ⟨h1, h2, h3, h4, h5, h6, h7, h8⟩ := hko
    refine hcommon rfl rfl (by intro _; omega) (by simp) ?_
    refine ⟨?_, ?_, by simp, ?_⟩
    · cases ty with
      | unordered b => exact h6 b (Or.inr rfl)
      | task b => exact h6 b (Or.inl rfl)
      | ordered num style =>
        obtain ⟨_, _, _, _, _, _, _, h⟩ := h7 num style rfl
        exact h
      | description => trivial
    · intro c hc
      have := h5 c hc
      have := hss.len
      simp only at this ⊢
      omega
    · intro hd
      obtain ⟨h9, h10⟩ := h8 hd
      have hsl : sliceOf src ⟨span.start + first.start, span.stop + first.start⟩ = [c! ':'] := by
        have e1 : span.start + first.start = first.start + indent := by omega
        have e2 : span.stop + first.start = first.start + indent + 1 := by omega
        have h11 : sliceOf src ⟨first.start + indent, first.stop⟩ = (sliceOf src first).drop indent := sliceOf_advance
        rw [← h11] at h10
        rw [e1, e2]
        unfold sliceOf at h10 ⊢
        simp only at h10 ⊢
        rw [show first.start + indent + 1 - (first.start + indent) = 1 by omega]
        cases hd : List.drop (first.start + indent) src with
        | nil => rw [hd] at h10; simp at h10
        | cons x xs =>
          rw [hd] at h10
          cases hn : first.stop - (first.start + indent) with
          | zero => rw [hn] at h10; simp at h10
          | succ n => rw [hn] at h10; simp at h10; simp [h10]
      simp only
      rw [hsl]; decide
  | table c b =>
    cases k <;> simp [Kind.core] at hcore
    rename_i c' b'
    obtain ⟨rfl, rfl, h3, h4⟩ := hko
    refine hcommon rfl rfl (by simp [Kind.shrinks]) (by simp) ?_
    have hr := hrest (by simp) (by simp)
    refine ⟨by simp [h3], rfl, ?_⟩
    simp only
    rw [hr]
    rcases hmeas.table with h0 | ht
    · exact absurd h0 (by simp)
    · have hrow : RowLine src ⟨first.start + span.stop, first.stop⟩ := by
        right
        rw [sliceOf_advance, h3]
        exact trim_head h4 (by decide)
      have ht' : TabLines src (rest.take m) := by
        obtain ⟨rows, caps, he, hrows, hcaps⟩ := ht
        have htk : rest.take m = rows.take m ++ caps.take (m - rows.length) := by
          rw [← hmn, he, List.take_append]
        refine ⟨rows.take m, caps.take (m - rows.length), htk, ?_, ?_⟩
        · intro l hl; exact hrows l (List.mem_of_mem_take hl)
        · rcases hcaps with rfl | ⟨x, xs, rfl, hx⟩
          · simp
          · cases hd : m - rows.length with
            | zero => simp
            | succ j => right; exact ⟨x, xs.take j, by simp, hx⟩
      obtain ⟨rows, caps, he, hrows, hcaps⟩ := ht'
      refine ⟨_ :: rows, caps, by rw [he]; rfl, ?_, hcaps⟩
      intro l hl
      rcases List.mem_cons.1 hl with rfl | hl
      · exact hrow
      · exact hrows l hl
  | fenced i fl fk spec closing nested =>
    have hmn' : m = n := by
      have := hm1 (by simp); simp at this; omega
    cases k <;> simp [Kind.core] at hcore
    rename_i i' fl' fk' spec' c' n'
    obtain ⟨rfl, rfl, rfl, rfl⟩ := hcore
    obtain ⟨h1, h2, rfl, rfl, h5, h6⟩ := hko
    have hspanstop : span.stop + first.start = first.stop := by
      rw [h5]; simp only [List.length_drop]
      have := sliceOf_length hf; have := hf.le; omega
    have hr := hrest (by simp) (by simp)
    simp only [List.cons.injEq] at hr
    obtain ⟨rfl, rfl⟩ := hr
    have hwd : weight (rest.take m) + 1 ≤ weight (first :: rest.take m) := by simp; omega
    cases closing with
    | false =>
      have hsf : skipFence (.fenced i fl fk spec false nested) (⟨first.start + span.stop, first.stop⟩ :: rest.take m) = .ok (rest.take m) := by
        unfold skipFence
        simp only [csub, Bool.false_eq_true, if_false, Nat.zero_le, if_true, Bind.bind, Except.bind, Nat.sub_zero]
        rw [if_pos (by simp)]
        rw [List.take_of_length_le (Nat.le_refl _)]; rfl
      rw [hsf]
      refine Sat.ok ⟨by simp, by simp; omega, hss, by simp, hendok.at_stop, ?_, ?_, ?_, h6, hbeg, fun _ => hfulltl⟩
      · simp only [endSpan, htake]; rw [hend]
      · simp only [endSpan, hspanstop]; rw [hend]; exact htl
      · simp only [htake, Kind.shrinks, if_true]; exact hwd
    | true =>
      have hne : rest.take m ≠ [] := by
        rcases hmeas.fenced rfl with h0 | h0
        · exact absurd h0 (by simp)
        · rw [hmn']; exact h0
      rcases List.eq_nil_or_concat (rest.take m) with h0 | ⟨init, last, hlast⟩
      · exact absurd h0 hne
      · rw [List.concat_eq_append] at hlast
        have hsf : skipFence (.fenced i fl fk spec true nested) (⟨first.start + span.stop, first.stop⟩ :: rest.take m) = .ok init := by
          rw [hlast]; exact skipFence_true _ _ _
        rw [hsf]
        have hel : endLine = last := by
          rw [← hE]
          have : first :: rest.take m = (first :: init) ++ [last] := by rw [hlast]; rfl
          simp only [this]; exact getLast_snoc _ _ _
        rw [hlast] at htl
        obtain ⟨hi1, hi2⟩ := htl.split
        refine Sat.ok ⟨by simp, by simp; omega, hss, by simp, hendok, ?_, ?_, ?_, h6, hbeg, fun _ l hl => hfulltl l (by rw [hlast]; exact List.mem_append_left _ hl)⟩
        · simp only [endSpan, htake]; rw [hend]
        · simp only [endSpan, hspanstop, hel]
          refine hi1.mono (Nat.le_refl _) ?_
          cases hi2 with
          | cons _ h _ _ => exact h
        · simp only [htake, Kind.shrinks, if_true]
          rw [hlast] at hwd ⊢
          rw [weight_append] at hwd
          simp only [weight_cons] at hwd ⊢
          rw [weight_append]
          simp only [weight_cons]
          omega

end Jotdown.Block
