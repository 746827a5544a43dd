import Verif.Proofs.Prepare
import Verif.Spec.Fence
namespace Jotdown.Block
open Jotdown

theorem takeWhile_replicate_append {c : UInt8} {n : Nat} {r : Bytes} (h : r.head? ≠ some c) :
    (List.replicate n c ++ r).takeWhile (· == c) = List.replicate n c := by
  induction n with
  | zero =>
    cases r with
    | nil => simp
    | cons b r => simp at h; simp [h]
  | succ n ih => simp [List.replicate_succ, ih]

theorem identify_opens {c : UInt8} {indent n : Nat} {spec line : Bytes} (h : OpensFence c indent n spec line)
    (hs : Safe line) : identify line = .ok (.fenced indent n (.codeBlock c) spec false none, ⟨indent, line.length⟩) := by
  obtain ⟨hc, hn, ⟨ws, mid, tail, rfl, rfl, hws, hmid, htail, hhead⟩, hname⟩ := h
  have hcw : isWs c = false := by rcases hc with rfl | rfl <;> decide
  have hcl : c < 128 := by rcases hc with rfl | rfl <;> decide
  have hci : isInnerWs c = false := by simp [isInnerWs, hcw]
  obtain ⟨m, rfl⟩ : ∃ m, n = m + 1 := ⟨n - 1, by omega⟩
  unfold identify
  have hd : (ws ++ (List.replicate (m + 1) c ++ (mid ++ (spec ++ tail)))).dropWhile (fun c => isWs c && c != c! '\n') =
      List.replicate (m + 1) c ++ (mid ++ (spec ++ tail)) := by
    rw [dropWhile_append_all (by simpa [isInnerWs] using hws), List.replicate_succ, List.cons_append, List.dropWhile_cons, hcw]
    rfl
  rw [hd]
  simp only [List.length_append]
  have hind : ws.length + ((List.replicate (m + 1) c).length + (mid.length + (spec.length + tail.length))) -
      ((List.replicate (m + 1) c).length + (mid.length + (spec.length + tail.length))) = ws.length := by omega
  rw [hind]
  have hrh : (mid ++ (spec ++ tail)).head? ≠ some c := by
    cases mid with
    | nil =>
      cases spec with
      | nil =>
        cases tail with
        | nil => simp
        | cons b t =>
          simp; intro h; have := htail b (by simp); rw [h] at this; simp_all
      | cons b s => simpa using hhead rfl
    | cons b t => simp; intro h; have := hmid b (by simp); rw [h] at this; simp_all
  have hsl : (List.replicate (m + 1) c ++ (mid ++ (spec ++ tail))) = c :: (List.replicate m c ++ (mid ++ (spec ++ tail))) := by
    simp [List.replicate_succ]
  -- the trimmed line
  have htr : ∃ mid', trimEnd (List.replicate (m + 1) c ++ (mid ++ (spec ++ tail))) = List.replicate (m + 1) c ++ (mid' ++ spec) ∧
      (∀ b ∈ mid', isWs b = true) := by
    cases hspec : spec with
    | nil =>
      refine ⟨[], ?_, by simp⟩
      rw [List.nil_append, trimEnd_append_ws (by intro x hx; exact (List.mem_append.1 hx).elim (hmid x) (htail x))]
      simp only [List.append_nil]
      apply trimEnd_of_last
      intro x hx
      rw [List.replicate_succ', List.getLast?_append] at hx
      simp at hx
      rw [← hx]; exact hcw
    | cons b s =>
      refine ⟨mid, ?_, hmid⟩
      rw [← hspec, ← List.append_assoc mid, ← List.append_assoc, trimEnd_append_ws htail]
      apply trimEnd_of_last
      intro x hx
      have : x ∈ spec := by
        have hne : spec ≠ [] := by rw [hspec]; simp
        rw [List.getLast?_append, List.getLast?_append, List.getLast?_eq_some_getLast hne] at hx
        simp at hx
        rw [← hx]
        exact List.getLast_mem hne
      exact (hname x this).1
  obtain ⟨mid', htr, hmid'⟩ := htr
  rw [htr, hsl]
  simp only
  have hm : identMatch ws.length (c :: (List.replicate m c ++ (mid ++ (spec ++ tail)))) (List.replicate (m + 1) c ++ (mid' ++ spec)) c
      (List.replicate m c ++ (mid ++ (spec ++ tail))) =
      .ok (some (.fenced ws.length (m + 1) (.codeBlock c) spec false none,
        ⟨ws.length, ws.length + (c :: (List.replicate m c ++ (mid ++ (spec ++ tail)))).length⟩)) := by
    have hf : identFence ws.length c (c :: (List.replicate m c ++ (mid ++ (spec ++ tail)))) (List.replicate (m + 1) c ++ (mid' ++ spec))
      (List.replicate m c ++ (mid ++ (spec ++ tail))) =
      .ok (some (.fenced ws.length (m + 1) (.codeBlock c) spec false none,
        ⟨ws.length, ws.length + (c :: (List.replicate m c ++ (mid ++ (spec ++ tail)))).length⟩)) := by
      unfold identFence
      have hcnt : 1 + Lex.countWhile (· == c) (List.replicate m c ++ (mid ++ (spec ++ tail))) = m + 1 := by
        unfold Lex.countWhile; rw [takeWhile_replicate_append hrh]; simp; omega
      rw [hcnt]
      have hbd : Bd (mid' ++ spec) := by
        have h1 : Safe (List.replicate (m + 1) c ++ (mid' ++ spec)) := by
          rw [← htr]
          refine (trimEnd_bd_safe ?_ ?_).2
          · rw [hsl]; exact Bd_of_lt hcl
          · exact hs.of_append
        exact Safe.bd_append (c := c) h1 (by rw [List.replicate_succ']; simp) hcl
      have hslice : strSlice (List.replicate (m + 1) c ++ (mid' ++ spec)) (m + 1) (List.replicate (m + 1) c ++ (mid' ++ spec)).length = .ok (mid' ++ spec) := by
        rw [strSlice_ok (by simp) (Nat.le_refl _)]
        · congr 1
          rw [List.drop_append]; simp
          rw [List.take_of_length_le (by simp)]
        · rw [List.drop_append]; simpa using hbd
        · intro x; simp
      simp only []
      rw [hslice]
      simp only [Bind.bind, Except.bind]
      have hts : trimStart (mid' ++ spec) = spec := by
        unfold trimStart
        rw [dropWhile_append_all hmid']
        cases spec with
        | nil => rfl
        | cons b s => rw [List.dropWhile_cons, (hname b (by simp)).1]; simp
      rw [hts]
      have hcolon : c ≠ c! ':' := by rcases hc with rfl | rfl <;> decide
      have h1 : spec.any isWs = false := by rw [List.any_eq_false]; intro b hb; simp [(hname b hb).1]
      have h2 : spec.any (· == c! '`') = false := by rw [List.any_eq_false]; intro b hb; simpa using (hname b hb).2
      rw [if_neg hcolon, if_neg hcolon, h1, h2]
      simp [hn, pure, Except.pure]
    rw [← hf]
    unfold identMatch
    rcases hc with rfl | rfl <;> rfl
  rw [hm]
  simp [Bind.bind, Except.bind, pure, Except.pure, List.length_append]
  omega

theorem identify_eq (line : Bytes) : identify line =
    (match line.dropWhile isInnerWs with
      | [] => .ok (.atom .blankline, ⟨line.length, line.length⟩)
      | first :: chars => do
        let r ← identMatch (line.length - (first :: chars).length) (first :: chars) (trimEnd (first :: chars)) first chars
        pure (r.getD (.paragraph, ⟨line.length - (first :: chars).length, line.length - (first :: chars).length⟩))) := by
  unfold identify
  have : (fun c => isWs c && c != c! '\n') = isInnerWs := rfl
  rw [this]
  cases h : line.dropWhile isInnerWs <;> simp

/-- Only lines starting with a fence character are identified as code fences of that character. -/
theorem identMatch_code {indent : Nat} {line lineT chars : Bytes} {first : UInt8} {r : Option (Kind × Span)}
    (h : identMatch indent line lineT first chars = .ok r) {i l : Nat} {c : UInt8} {sp : Bytes} {cl : Bool} {nr : Option (UInt8 × Nat)} {s : Span}
    (hr : r = some (.fenced i l (.codeBlock c) sp cl nr, s)) : first = c := by
  subst hr
  unfold identMatch at h
  repeat' split at h
  all_goals first
    | (simp at h; done)
    | (simp [identBullet] at h; done)
    | skip
  · obtain ⟨v, -, h⟩ := bind_ok h
    simp only [pure, Except.pure] at h
    split at h <;> simp at h
  · unfold identDefinition at h
    split at h
    · simp at h
    · obtain ⟨v, -, h⟩ := bind_ok h
      split at h
      · obtain ⟨w, -, h⟩ := bind_ok h
        obtain ⟨x, -, h⟩ := bind_ok h
        simp [pure, Except.pure] at h
      · simp [pure, Except.pure] at h
  · simp only [identBullet, Except.ok.injEq] at h
    repeat' split at h
    all_goals simp at h
  · unfold identFence at h
    obtain ⟨v, -, h⟩ := bind_ok h
    simp only [] at h
    generalize (if first = c! ':' then (trimStart v).all Attr.isName else !(trimStart v).any isWs && !(trimStart v).any (· == c! '`')) = vs at h
    split at h
    · simp only [pure, Except.pure, Except.ok.injEq, Option.some.injEq, Prod.mk.injEq, Kind.fenced.injEq] at h
      have := h.1.2.2.1
      split at this <;> simp at this
      exact this
    · simp [pure, Except.pure] at h
  · obtain ⟨v, -, h⟩ := bind_ok h
    simp only [pure, Except.pure, Except.ok.injEq] at h
    cases v <;> simp at h

theorem fence_step {c : UInt8} {indent n : Nat} {spec line : Bytes} (hc : c = c! '`' ∨ c = c! '~') (hn : 3 ≤ n)
    (hb : Bd line) (hs : Safe line) :
    (Kind.fenced indent n (.codeBlock c) spec false none).continues line =
      .ok (true, .fenced indent n (.codeBlock c) spec (closesFence c n line) none) := by
  obtain ⟨⟨k, sp⟩, hk, -⟩ := (identify_ok hb hs).exists_ok
  have hcw : isWs c = false := by rcases hc with rfl | rfl <;> decide
  have hcl : c < 128 := by rcases hc with rfl | rfl <;> decide
  have hcolon : c ≠ c! ':' := by rcases hc with rfl | rfl <;> decide
  unfold Kind.continues
  simp only [Bool.false_eq_true, ↓reduceIte, hk, Bind.bind, Except.bind, pure, Except.pure, Except.ok.injEq, Prod.mk.injEq, true_and]
  rw [identify_eq] at hk
  unfold closesFence
  have hfalse : (∀ i l sp cl nr, k ≠ .fenced i l (.codeBlock c) sp cl nr) →
      fenceContinues indent n (.codeBlock c) spec false none k = .fenced indent n (.codeBlock c) spec false none := by
    intro hne
    unfold fenceContinues
    split
    · rename_i i l k' sp' cl nr
      simp only
      rw [if_neg (by intro h; exact hne i l sp' cl nr (by rw [h])), if_neg (by simp)]
    · rfl
  cases hl : line.dropWhile isInnerWs with
  | nil =>
    rw [hl] at hk
    simp at hk
    rw [hfalse (by rw [← hk.1]; simp)]
    simp; omega
  | cons first chars =>
    rw [hl] at hk
    simp only at hk
    obtain ⟨r, hr, hk⟩ := bind_ok hk
    by_cases hfc : first = c
    · subst hfc
      have hm : identMatch (line.length - (first :: chars).length) (first :: chars) (trimEnd (first :: chars)) first chars =
          identFence (line.length - (first :: chars).length) first (first :: chars) (trimEnd (first :: chars)) chars := by
        unfold identMatch
        rcases hc with rfl | rfl <;> rfl
      rw [hm] at hr
      unfold identFence at hr
      obtain ⟨sp', hsl, hr⟩ := bind_ok hr
      simp only [] at hr
      -- decompose the line
      have hdec : first :: chars = List.replicate (1 + Lex.countWhile (· == first) chars) first ++ (first :: chars).dropWhile (· == first) := by
        have h1 : (first :: chars).takeWhile (· == first) = List.replicate (1 + Lex.countWhile (· == first) chars) first := by
          rw [List.eq_replicate_iff]
          refine ⟨by simp [Lex.countWhile]; omega, ?_⟩
          intro b hb
          have := List.all_eq_true.1 (List.all_takeWhile (p := (· == first)) (l := first :: chars)) b hb
          simpa using this
        conv => lhs; rw [← List.takeWhile_append_dropWhile (p := (· == first)) (l := first :: chars)]
        rw [h1]
      have hlen : ((first :: chars).takeWhile (· == first)).length = 1 + Lex.countWhile (· == first) chars := by
        simp [Lex.countWhile]; omega
      generalize hq : (first :: chars).dropWhile (· == first) = q at *
      generalize hcnt : 1 + Lex.countWhile (· == first) chars = m at *
      have hm1 : 1 ≤ m := by omega
      -- the spec is empty iff the rest is blank
      have hsp : (trimStart sp').isEmpty = q.all isWs := by
        unfold strSlice at hsl
        split at hsl
        case isFalse => simp at hsl
        simp only [Except.ok.injEq] at hsl
        rw [hdec] at hsl
        by_cases hqw : ∀ b ∈ q, isWs b = true
        · have : trimEnd (List.replicate m first ++ q) = List.replicate m first := by
            rw [trimEnd_append_ws hqw, trimEnd_of_last]
            intro x hx
            have := List.mem_of_getLast? hx
            rw [List.eq_of_mem_replicate this]; exact hcw
          rw [this] at hsl
          simp at hsl
          rw [hsl]
          rw [(List.all_eq_true (p := isWs) (l := q)).2 hqw]; rfl
        · have hne : trimEnd q ≠ [] := by
            intro h
            obtain ⟨w, hw, hww⟩ := trimEnd_spec q
            rw [h, List.nil_append] at hw
            exact hqw (by rw [hw]; exact hww)
          rw [trimEnd_append_ne hne] at hsl
          rw [List.drop_append] at hsl
          simp at hsl
          rw [← hsl]
          have h3 : q.all isWs = false := by
            rw [List.all_eq_false]
            simpa using hqw
          rw [h3]
          unfold trimStart
          rw [List.isEmpty_eq_false_iff]
          intro h
          rw [dropWhile_nil_iff] at h
          obtain ⟨w, hw, hww⟩ := trimEnd_spec q
          apply hqw
          rw [hw]
          intro b hb
          rcases List.mem_append.1 hb with hb | hb
          · exact h b hb
          · exact hww b hb
      simp only []
      rw [hlen, hq]
      rw [if_neg hcolon, if_neg hcolon] at hr
      split at hr
      · have hr := Except.ok.inj hr
        simp only [pure, Except.pure, Except.ok.injEq] at hk
        rw [← hr] at hk
        simp only [Option.getD_some, Prod.mk.injEq] at hk
        rw [← hk.1]
        unfold fenceContinues
        simp only [↓reduceIte, Kind.fenced.injEq, and_true, true_and]
        rw [hsp]
      · rename_i hv
        have hr := Except.ok.inj hr
        simp only [pure, Except.pure, Except.ok.injEq] at hk
        rw [← hr] at hk
        simp only [Option.getD_none, Prod.mk.injEq] at hk
        rw [hfalse (by rw [← hk.1]; simp)]
        simp only [Kind.fenced.injEq, and_true, true_and]
        symm
        rw [Bool.and_eq_false_iff]
        by_cases hq2 : q.all isWs = true
        · left
          rw [← hsp] at hq2
          have : trimStart sp' = [] := by simpa using hq2
          rw [this] at hv
          simp at hv
          simp; omega
        · right; simpa using hq2
    · rw [hfalse]
      · simp only [Kind.fenced.injEq, and_true, true_and]
        rw [List.takeWhile_cons, if_neg (by simpa using hfc)]
        simp; omega
      · intro i l sp'' cl nr hkk
        simp only [pure, Except.pure, Except.ok.injEq] at hk
        cases r with
        | none => simp at hk; rw [← hk.1] at hkk; simp at hkk
        | some r =>
          simp at hk
          subst hk
          exact hfc (identMatch_code hr (by rw [← hkk]))

theorem measure_closed {src : Bytes} {i n : Nat} {fk : FenceKind} {sp : Bytes} {nr : Option (UInt8 × Nat)} {ls : List Span}
    (h : ∀ l ∈ ls, SpanOk src l) :
    measure src (.fenced i n fk sp true nr) ls = .ok (.fenced i n fk sp true nr, 0) := by
  cases ls with
  | nil => rfl
  | cons l ls =>
    rw [measure, (h l (by simp)).slice]
    simp [Bind.bind, Except.bind, Kind.continues, pure, Except.pure]

theorem fence_measure {src : Bytes} (hs : Safe src) {c : UInt8} {indent n : Nat} {spec : Bytes} (hc : c = c! '`' ∨ c = c! '~') (hn : 3 ≤ n)
    {ls : List Span} (h : ∀ l ∈ ls, SpanOk src l) :
    measure src (.fenced indent n (.codeBlock c) spec false none) ls =
      .ok (.fenced indent n (.codeBlock c) spec (codeContent c n (ls.map (sliceOf src))).2 none,
        (codeContent c n (ls.map (sliceOf src))).1 + if (codeContent c n (ls.map (sliceOf src))).2 then 1 else 0) := by
  induction ls with
  | nil => rfl
  | cons l ls ih =>
    have hl := h l (by simp)
    rw [measure, hl.slice]
    simp only [Bind.bind, Except.bind]
    have hbs : Bd (sliceOf src l) := hl.bs.take _
    rw [fence_step hc hn hbs ((hs.drop _).take _)]
    simp only [↓reduceIte, List.map_cons, codeContent]
    by_cases hcl : closesFence c n (sliceOf src l) = true
    · rw [hcl, measure_closed (fun m hm => h m (by simp [hm]))]
      simp [pure, Except.pure]
    · have : closesFence c n (sliceOf src l) = false := by simpa using hcl
      rw [this, ih (fun m hm => h m (by simp [hm]))]
      simp [pure, Except.pure]
      omega

theorem codeContent_le (c : UInt8) (n : Nat) (ls : List Bytes) :
    (codeContent c n ls).1 + (if (codeContent c n ls).2 then 1 else 0) ≤ ls.length := by
  induction ls with
  | nil => simp [codeContent]
  | cons l ls ih =>
    unfold codeContent
    split
    · simp
    · simp only [List.length_cons]; omega

theorem prepare_fence {src : Bytes} (hs : Safe src) {c : UInt8} {indent n : Nat} {spec : Bytes} {first : Span} {rest : List Span}
    (h : ∀ l ∈ first :: rest, SpanOk src l) (ho : OpensFence c indent n spec (sliceOf src first)) {k : Nat} {closed : Bool}
    (hk : codeContent c n (rest.map (sliceOf src)) = (k, closed)) :
    ∃ spanEnd, prepare src first rest = .ok ⟨.fenced indent n (.codeBlock c) spec closed none, ⟨first.start + indent, first.stop⟩,
      spanEnd, first.stop - first.start, rest.take k, k + 1 + if closed then 1 else 0⟩ := by
  have hf := h first (by simp)
  have hlen := sliceOf_length hf
  have hfle := hf.le
  have hcl := codeContent_le c n (rest.map (sliceOf src))
  rw [hk] at hcl
  simp only [List.length_map] at hcl
  unfold prepare meteredBlock
  rw [hf.slice]
  simp only [Bind.bind, Except.bind]
  rw [identify_opens ho ((hs.drop _).take _)]
  simp only
  rw [fence_measure hs ho.fence ho.len (fun l hl => h l (by simp [hl])), hk]
  simp only [pure, Except.pure, trimTable, List.take_succ_cons]
  have hcs : csub ((sliceOf src first).length + first.start) first.start = .ok (first.stop - first.start) := by
    unfold csub; rw [if_pos (by omega), hlen]; congr 1; omega
  rw [hcs]
  simp only [skipOuter]
  have hle : first.start + (first.stop - first.start) = first.stop := by omega
  have hle2 : (sliceOf src first).length + first.start = first.stop := by rw [hlen]; omega
  rw [hle2, Nat.add_comm indent first.start]
  refine ⟨endSpan (.fenced indent n (.codeBlock c) spec closed none) ((first :: rest.take (k + if closed then 1 else 0)).getLast (by simp)), ?_⟩
  have htl : (rest.take (k + if closed then 1 else 0)).length = k + if closed then 1 else 0 := by
    rw [List.length_take]; omega
  cases closed with
  | false =>
    simp only [Bool.false_eq_true, ↓reduceIte, Nat.add_zero] at *
    simp only [skipFence, csub, Bind.bind, Except.bind, pure, Except.pure, List.length_cons, htl, ↓reduceIte]
    simp [List.take_of_length_le (Nat.le_of_eq htl)]
  | true =>
    simp only [↓reduceIte] at *
    simp only [skipFence, csub, Bind.bind, Except.bind, pure, Except.pure, List.length_cons, htl, ↓reduceIte]
    rw [if_pos (by omega)]
    simp only
    rw [if_pos (by omega)]
    simp [List.take_take]

theorem dedent_eq (n : Nat) (l : Bytes) : dedent n l = l.drop (min n (Lex.countWhile (fun c => c != c! '\n' && isWs c) l)) := by
  induction l generalizing n with
  | nil => cases n <;> simp [dedent]
  | cons b l ih =>
    cases n with
    | zero => simp [dedent]
    | succ n =>
      unfold dedent Lex.countWhile
      rw [List.takeWhile_cons]
      by_cases hb : isInnerWs b = true
      · have hb' : (b != c! '\n' && isWs b) = true := by rw [Bool.and_comm]; exact hb
        rw [if_pos hb, if_pos hb', ih]
        simp only [List.length_cons]
        have : min (n + 1) ((List.takeWhile (fun c => c != c! '\n' && isWs c) l).length + 1) =
          min n (List.takeWhile (fun c => c != c! '\n' && isWs c) l).length + 1 := by omega
        rw [this]; simp [Lex.countWhile]
      · have hb' : ¬(b != c! '\n' && isWs b) = true := by rw [Bool.and_comm]; exact hb
        rw [if_neg hb, if_neg hb']; simp

theorem fenceLine_eq {src : Bytes} (hs : Safe src) {indent : Nat} {sp : Span} (h : SpanOk src sp) :
    ∃ sp', fenceLine src indent sp = .ok sp' ∧ SpanOk src sp' ∧ sliceOf src sp' = dedent indent (sliceOf src sp) := by
  have hbs := sliceOf_bd_safe h hs
  have hle : Lex.countWhile (fun c => c != c! '\n' && isWs c) (sliceOf src sp) ≤ sp.stop - sp.start := by
    rw [← sliceOf_length h]; exact Lex.countWhile_le _ _
  refine ⟨⟨sp.start + min indent (Lex.countWhile (fun c => c != c! '\n' && isWs c) (sliceOf src sp)), sp.stop⟩, ?_, ?_, ?_⟩
  · unfold fenceLine
    have hbsl : byteSlice src sp.start sp.stop = .ok (sliceOf src sp) := by
      unfold byteSlice sliceOf; rw [if_pos ⟨h.le, h.len⟩]
    rw [hbsl]; rfl
  · refine h.advance (by omega) ?_
    by_cases hi : indent < Lex.countWhile (fun c => c != c! '\n' && isWs c) (sliceOf src sp)
    · rw [Nat.min_eq_left (by omega)]
      intro c hc
      have h1 := countWhile_lt_get hi
      obtain ⟨x, hx, hp⟩ := h1
      rw [List.head?_drop, hx] at hc
      simp at hc hp
      subst hc
      exact not_isCont_of_lt (isWs_lt hp.2)
    · rw [Nat.min_eq_right (by omega)]
      exact countWhile_bd (fun c hc => by simp at hc; exact isWs_lt hc.2) hbs.1 hbs.2
  · rw [dedent_eq, ← sliceOf_advance]

theorem mapLines_fence {src : Bytes} (hs : Safe src) {indent : Nat} {ls : List Span} (h : ∀ l ∈ ls, SpanOk src l) :
    ∃ ls', mapLines (fenceLine src indent) ls = .ok ls' ∧ (∀ l ∈ ls', SpanOk src l) ∧
      ls'.map (sliceOf src) = (ls.map (sliceOf src)).map (dedent indent) := by
  induction ls with
  | nil => exact ⟨[], rfl, by simp, rfl⟩
  | cons l ls ih =>
    obtain ⟨ls', h1, h2, h3⟩ := ih (fun m hm => h m (by simp [hm]))
    obtain ⟨l', g1, g2, g3⟩ := fenceLine_eq hs (indent := indent) (h l (by simp))
    refine ⟨l' :: ls', ?_, ?_, ?_⟩
    · rw [mapLines, g1, h1]; rfl
    · intro m hm
      rcases List.mem_cons.1 hm with rfl | hm
      · exact g2
      · exact h2 m hm
    · simp only [List.map_cons, g3, h3]

theorem trimLast_text {p : TP} {ls : List Span} (h : ∀ l ∈ ls, SpanOk p.src l) :
    ∃ ls', p.trimLast ls = .ok ls' ∧ (∀ l ∈ ls', SpanOk p.src l) ∧
      ls'.map (sliceOf p.src) = (match (ls.map (sliceOf p.src)).getLast? with
        | some l => (ls.map (sliceOf p.src)).dropLast ++ [trimEnd l]
        | none => []) := by
  rcases List.eq_nil_or_concat ls with h0 | ⟨init, l, rfl⟩
  · subst h0; exact ⟨[], rfl, by simp, rfl⟩
  · rw [List.concat_eq_append] at h ⊢
    obtain ⟨r, hr1, hr2, hr3⟩ := (TP.trimEnd_ok (p := p) (h l (by simp))).exists_ok
    have hl := h l (by simp)
    refine ⟨init ++ [r], ?_, ?_, ?_⟩
    · unfold TP.trimLast
      rw [List.getLast?_append]
      simp only [List.getLast?_singleton, Option.some_or, Bind.bind, Except.bind, hr1, pure, Except.pure]
      simp
    · intro m hm
      rcases List.mem_append.1 hm with hm | hm
      · exact h m (by simp [hm])
      · simp at hm; subst hm; exact hr3.ok
    · rw [List.map_append, List.map_append, List.getLast?_append]
      simp only [List.map_cons, List.map_nil, List.getLast?_singleton, Option.some_or, List.dropLast_concat, List.map_append]
      congr 2
      rw [hr2]
      unfold sliceOf
      simp only [Nat.add_sub_cancel_left]
      conv => rhs; rw [trimEnd_take]
      rw [List.take_take, Nat.min_eq_left]
      have := trimEnd_length_le (sliceOf p.src l)
      rw [sliceOf_length hl] at this
      exact this

theorem foldl_inline (p : TP) (ls : List Span) : ls.foldl TP.inline p = { p with events := p.events ++ ls.map (fun l => (⟨.inline, l⟩ : Event)) } := by
  induction ls generalizing p with
  | nil => simp
  | cons l ls ih => rw [List.foldl_cons, ih]; simp [TP.inline]

theorem map_filter_text {src : Bytes} {ls : List Span} (h : ∀ l ∈ ls, SpanOk src l) :
    (ls.filter (fun l => !l.isEmpty)).map (sliceOf src) = (ls.map (sliceOf src)).filter (fun l => !l.isEmpty) := by
  induction ls with
  | nil => rfl
  | cons l ls ih =>
    have hl := h l (by simp)
    have he : l.isEmpty = (sliceOf src l).isEmpty := by
      have h1 := sliceOf_length hl
      have h2 := hl.le
      rw [Bool.eq_iff_iff, List.isEmpty_iff_length_eq_zero, h1]
      simp [Span.isEmpty]
      omega
    simp only [List.filter_cons, List.map_cons, he]
    split
    · rw [List.map_cons, ih (fun m hm => h m (by simp [hm]))]
    · exact ih (fun m hm => h m (by simp [hm]))

end Jotdown.Block
