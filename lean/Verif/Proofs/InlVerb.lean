import Verif.Proofs.InlRes
/-! # Inline verbatim -/
namespace Jotdown.Inline
open Jotdown
open Jotdown.Block
open Jotdown.Notation

variable {c : Cx}

theorem Shape.queue {N : Notes} {os : List (Opener × Nat)} {lo : Nat} {es : List Event} {n : Nat} {ty : ElemTy} (h : Shape N os lo es n ty) : QueueOk N none os lo es n :=
  h.lay

theorem Pre.adv {p : IP} {ty : ElemTy} {s : Nat} (h : Pre c p ty s) (hs : p.input.span.stop = s) (hq : c.q < s) : Adv c p := by
  subst hs
  exact ⟨⟨h.inp, h.attr, by rw [h.verb]; exact h.shape.queue, h.evs, h.store, h.last, h.pot, .none h.verb⟩, hq, h.al⟩

theorem Pre.lex {p : IP} {ty : ElemTy} {s : Nat} (h : Pre c p ty s) {l : Lex.Lexer}
    (hl : Lex.Rem l (sliceOf c.src ⟨p.input.span.stop, p.input.spanLine.stop⟩)) : Pre c { p with input := { p.input with lexer := l } } ty s :=
  ⟨h.inp.lex hl, h.attr, h.verb, h.shape, h.evs, h.store, h.last, h.pot, h.q, h.al⟩

/-- A token of a fixed text. -/
theorem tok_len {r : Bytes} {t : Lex.Token} {s : Bytes} (h : r.take t.len = s) (hl : t.len ≤ r.length) : t.len = s.length := by
  have := congrArg List.length h
  simp at this
  omega

theorem peekKind_some {i : Input} {k : Lex.Kind} (h : i.peekKind.1 = some k) : ∃ t, i.peek.1 = some t ∧ t.kind = k := by
  unfold Input.peekKind at h
  cases hp : i.peek.1 with
  | none => simp [hp] at h
  | some t => simp [hp] at h; exact ⟨t, rfl, h⟩

theorem slice_drop1_src {src : Bytes} {a b : Nat} (h : (sliceOf src ⟨a, b⟩).head? = some x) : src[a]? = some x ∧ a < b := by
  by_cases hab : a < b
  · rw [slice_head hab] at h; exact ⟨h, hab⟩
  · have : b - a = 0 := by omega
    simp [sliceOf, this] at h

/-- Attributes directly after a closed element. -/
theorem afterAttrs_ok (hc : c.Ok) {p : IP} {ty : ElemTy} (h : Pre c p ty p.input.span.stop) (hq : c.q < p.input.span.stop) :
    Sat Never (if (p.input.peekKind).1 = some (.opn .brace) then ({ p with input := (p.input.peekKind).2 } : IP).aheadAttributesOr ty
      else .ok ({ p with input := (p.input.peekKind).2 }, some .cont)) (Res c (fun _ => False)) := by
  obtain ⟨l, hl, hpk⟩ := h.inp.peek
  have h2 : p.input.peekKind.2 = { p.input with lexer := l } := hl
  rw [h2]
  have hp := h.lex hpk.rem
  have hadv : Adv c { p with input := { p.input with lexer := l } } := Pre.adv hp rfl hq
  split
  · rename_i hk
    obtain ⟨t, ht, htk⟩ := peekKind_some hk
    obtain ⟨⟨h3, h4⟩, h5, h6⟩ := hpk.some t ht
    rw [htk] at h3
    have h7 : t.len = 1 := tok_len h3 h6
    have h8 : t = ⟨.opn .brace, 1⟩ := by cases t; simp at *; exact ⟨htk, h7⟩
    have h9 : (sliceOf c.src ⟨p.input.span.stop, p.input.spanLine.stop⟩).head? = some (c! '{') := by
      rw [h7] at h3
      cases hr : sliceOf c.src ⟨p.input.span.stop, p.input.spanLine.stop⟩ with
      | nil => rw [hr] at h3; simp [Lex.TextOf, Lex.Delimiter.openText] at h3
      | cons x xs => rw [hr] at h3; simpa [Lex.TextOf, Lex.Delimiter.openText] using h3
    obtain ⟨h10, h11⟩ := slice_drop1_src h9
    have hres := aheadAttributes_ok hc hp h.inp.ls (s := p.input.span.stop) (eaten := false) h11 h.inp.be h10 (h4 htk)
      (fun _ => ⟨rfl, by rw [← h8, ← ht]; exact hpk.tok⟩) (by simp [csub])
    obtain ⟨r, hr1, hr2⟩ := hres.exists_ok
    unfold IP.aheadAttributesOr
    rw [hr1]
    simp only [Bind.bind, Except.bind]
    refine Sat.pure ?_
    unfold Res at hr2 ⊢
    cases h12 : r.2 with
    | none => rw [h12] at hr2; simp only at hr2 ⊢; simp only [Option.getD_none]; rw [hr2]; exact hadv
    | some f => rw [h12] at hr2; cases f <;> exact hr2
  · exact hadv

/-! ## Raw formats -/

theorem scanRaw_ok {cs : Bytes} (h : (scanRaw cs).2 = true) : (scanRaw cs).1 < cs.length ∧ cs[(scanRaw cs).1]? = some (c! '}') ∧
    ∀ b ∈ cs.take (scanRaw cs).1, isWs b = false ∧ b ≠ c! '{' ∧ b ≠ c! '}' := by
  induction cs with
  | nil => simp [scanRaw] at h
  | cons x cs ih =>
    unfold scanRaw at h ⊢
    split at h
    · simp at h
    · rename_i h1
      rw [if_neg h1]
      split at h
      · rename_i h2; rw [if_pos h2]; simp [h2]
      · rename_i h2
        rw [if_neg h2]
        split at h
        · simp at h
        · rename_i h3
          rw [if_neg h3]
          obtain ⟨i1, i2, i3⟩ := ih h
          refine ⟨by simp; omega, by simpa using i2, ?_⟩
          intro b hb
          simp only [List.take_succ_cons, List.mem_cons] at hb
          rcases hb with rfl | hb
          · exact ⟨by simpa using h3, h1, h2⟩
          · exact i3 b hb

theorem bd_at {src : Bytes} {n : Nat} {x : UInt8} (h : src[n]? = some x) (hx : isCont x = false) : Bd (src.drop n) := by
  rw [bd_drop_iff]
  intro c' h'
  rw [h] at h'
  injection h' with h'
  rw [← h']; exact hx

theorem slice_get {src : Bytes} {a b n : Nat} {x : UInt8} (h : (sliceOf src ⟨a, b⟩)[n]? = some x) : src[a + n]? = some x ∧ a + n < b := by
  have h1 : (sliceOf src ⟨a, b⟩).drop n = sliceOf src ⟨a + n, b⟩ := slice_drop
  have h2 : ((sliceOf src ⟨a, b⟩).drop n).head? = some x := by simpa using h
  rw [h1] at h2
  exact slice_drop1_src h2

/-- Reading ahead to a terminator. -/
theorem skip_term (hc : c.Ok) {i : Input} (h : InpOk c i) (hn : i.lexer.next = none) {len : Nat} {x : UInt8} (hx : x < 128)
    (hg : (sliceOf c.src ⟨i.span.stop, i.spanLine.stop⟩)[len]? = some x) :
    ∃ l, i.lexer.skipAhead (len + 1) = .ok l ∧ Lex.Rem l (sliceOf c.src ⟨i.span.stop + len + 1, i.spanLine.stop⟩) ∧
      i.span.stop + len + 1 ≤ i.spanLine.stop ∧ Bd (c.src.drop (i.span.stop + len)) ∧ Bd (c.src.drop (i.span.stop + len + 1)) := by
  obtain ⟨h1, h2⟩ := slice_get hg
  have h3 := bd_after hc.safe h1 hx
  have hcont : isCont x = false := by
    simp [isCont]
    intro h; exfalso
    have h5 := UInt8.lt_iff_toNat_lt.1 hx
    have h6 := UInt8.le_iff_toNat_le.1 h
    simp at h5 h6
    omega
  have hb := bd_at h1 hcont
  have hlen := h.len hc
  have hbd : Bd ((sliceOf c.src ⟨i.span.stop, i.spanLine.stop⟩).drop (len + 1)) := by
    rw [slice_drop]; exact bd_slice (by simpa [Nat.add_assoc] using h3)
  obtain ⟨l, h4, h5⟩ := h.rem.skip hn (n := len + 1) (by rw [slice_length hlen]; omega) hbd
  rw [slice_drop] at h5
  exact ⟨l, h4, by simpa [Nat.add_assoc] using h5, by omega, hb, h3⟩

structure RawOk (c : Cx) (i : Input) (r : Option Span × Input) : Prop where
  ahead : r.2.ahead = i.ahead
  line : r.2.spanLine = i.spanLine
  none : r.1 = none → InpOk c r.2 ∧ r.2.span = i.span
  some : ∀ sp, r.1 = some sp → SpanOk c.src sp ∧ InpOk c { r.2 with span := ⟨r.2.span.start, sp.stop + 1⟩ } ∧
    r.2.span.start = i.span.start ∧ i.span.stop ≤ sp.stop ∧ sliceOf c.src ⟨i.span.stop, sp.stop + 1⟩ = b! "{=" ++ sliceOf c.src sp ++ b! "}" ∧
    Notation.FormatName (sliceOf c.src sp)

theorem aheadRawFormat_ok (hc : c.Ok) {i : Input} (h : InpOk c i) : Sat Never i.aheadRawFormat (RawOk c i) := by
  obtain ⟨l, hl, hpk⟩ := h.peek
  have h2 : i.peekKind.2 = { i with lexer := l } := hl
  unfold Input.aheadRawFormat
  rw [h2]
  have hi := h.lex hpk.rem
  have hnone : RawOk c i (none, { i with lexer := l }) := ⟨rfl, rfl, fun _ => ⟨hi, rfl⟩, fun _ h => by cases h⟩
  split
  · rename_i hk
    obtain ⟨t, ht, htk⟩ := peekKind_some hk
    obtain ⟨⟨h3, h4⟩, h5, h6⟩ := hpk.some t ht
    rw [htk] at h3
    have h7 : t.len = 2 := tok_len h3 h6
    have h8 : t = ⟨.opn .braceEqual, 2⟩ := by cases t; simp at *; exact ⟨htk, h7⟩
    rw [hpk.rem.ahead]
    simp only [Bind.bind, Except.bind]
    split
    · rename_i hs
      simp only [Bool.and_eq_true] at hs
      obtain ⟨h9, h10, h11⟩ := scanRaw_ok hs.2
      have he : ({ i with lexer := l } : Input).eat.1 = some ⟨.opn .braceEqual, 2⟩ := by
        apply eat_of_peeked
        rw [← h8, ← ht]
        exact hpk.tok
      have hate := hi.eat_some hc he
      unfold Input.eatRawFormat
      rw [he]
      simp only [dassert, beq_self_eq_true, if_true, Bind.bind, Except.bind]
      generalize hj : ({ i with lexer := l } : Input).eat.2 = j at *
      have hjs := hate.span
      have hjl := hate.line
      simp only at hjs hjl
      rw [slice_drop] at h10 h9 h11
      have hg : (sliceOf c.src ⟨j.span.stop, j.spanLine.stop⟩)[(scanRaw ((sliceOf c.src ⟨i.span.stop, i.spanLine.stop⟩).drop 2)).1]? = some (c! '}') := by
        rw [hjs, hjl, slice_drop]
        exact h10
      obtain ⟨l', g1, g2, g3, g4, g5⟩ := skip_term hc hate.inp (hate.next (by simp)) (by decide) hg
      rw [g1]
      simp only [Pure.pure, Except.pure]
      have hjst := hate.inp.le
      refine ⟨hate.ahead, hate.line, fun h => by simp at h, ?_⟩
      intro sp hsp
      simp only [Option.some.injEq] at hsp
      subst hsp
      have hjlen := hate.inp.len hc
      refine ⟨⟨by simp, by simp only; omega, hate.inp.be, g4⟩, ?_, ?_, ?_, ?_, ?_⟩
      · exact ⟨hate.inp.src, hate.inp.cpl, by simp only; omega, g3, hate.inp.bs, g5, hate.inp.bl, g2, hate.inp.chain, hate.inp.nl,
          hate.inp.ls.imp_left (fun h => by simp only; omega)⟩
      · simp only; rw [hjs]
      · simp only; rw [hjs]; simp only; omega
      · have e1 : sliceOf c.src ⟨i.span.stop, j.span.stop⟩ = b! "{=" := by
          rw [h7, slice_take (by have := hate.inp.stop; rw [hjl, hjs] at this; exact this)] at h3
          rw [hjs]; exact h3
        have hjs2 : j.span.stop = i.span.stop + 2 := by rw [hjs]
        have e2 := slice_last (src := c.src) (a := j.span.stop) (b := j.span.stop + (scanRaw ((sliceOf c.src ⟨i.span.stop, i.spanLine.stop⟩).drop 2)).1 + 1) (by omega) (by omega)
          (by rw [Nat.add_sub_cancel]; exact (slice_get hg).1)
        rw [Nat.add_sub_cancel] at e2
        generalize (scanRaw (List.drop 2 (sliceOf c.src ⟨i.span.stop, i.spanLine.stop⟩))).1 = sn at *
        rw [← slice_append (b := j.span.stop) (by omega) (by simp only; omega) (by simp only; omega), e1, e2]
        simp
      · have hjs2 : j.span.stop = i.span.stop + 2 := by rw [hjs]
        have hjst2 := hate.inp.stop
        rw [slice_length (h.len hc)] at h9
        rw [slice_drop]
        rw [slice_take (by omega)] at h11
        have hpos := hs.1
        simp only [slice_drop, decide_eq_true_eq] at hpos
        rw [hjs2]
        refine ⟨?_, h11⟩
        intro he
        have := congrArg List.length he
        rw [slice_length (by have := h.len hc; omega)] at this
        simp at this
        omega
    · exact hnone
  · exact hnone

/-! ## Runs of backticks -/

theorem mem_slice_iff {src : Bytes} {a b : Nat} {x : UInt8} : x ∈ sliceOf src ⟨a, b⟩ ↔ ∃ j, a ≤ j ∧ j < b ∧ src[j]? = some x := by
  unfold sliceOf
  simp only [List.mem_iff_getElem?, List.getElem?_take, List.getElem?_drop]
  constructor
  · rintro ⟨j, hj⟩
    split at hj
    · exact ⟨a + j, by omega, by omega, hj⟩
    · cases hj
  · rintro ⟨j, h1, h2, h3⟩
    refine ⟨j - a, ?_⟩
    rw [if_pos (by omega), show a + (j - a) = j by omega]
    exact h3

theorem clear_step {src : Bytes} {n a s e : Nat} (h : Clear src n a s) (hse : s < e)
    (hs : SameLine src a s → ((∀ j, s ≤ j → j < e → src[j]? = some (c! '`')) ∧ e ≠ s + n ∧ src[s - 1]? ≠ some (c! '`')) ∨ (∀ j, s ≤ j → j < e → src[j]? ≠ some (c! '`')))
    (ha : a ≤ s) (hn : 0 < n) : Clear src n a e := by
  rintro i ⟨h1, h2, h3, h4, h5⟩ hsame
  by_cases hin : i + n ≤ s
  · refine h i ⟨h1, hin, h3, h4, ?_⟩ hsame
    right
    rcases h5 with h5 | h5
    · omega
    · exact h5
  have hsl : SameLine src a s := by
    intro j j1 j2
    by_cases hj : j < i
    · exact hsame j j1 hj
    · rw [h3 j (by omega) (by omega)]; decide
  rcases hs hsl with ⟨g1, g2, g3⟩ | g1
  · by_cases his : i < s
    · exact g3 (h3 (s - 1) (by omega) (by omega))
    · by_cases hlt : s < i
      · rcases h4 with h4 | h4
        · omega
        · exact h4 (g1 (i - 1) (by omega) (by omega))
      · have : i = s := by omega
        subst this
        rcases h5 with h5 | h5
        · omega
        · exact h5 (g1 _ (by omega) (by omega))
  · exact g1 (i + n - 1) (by omega) (by omega) (h3 _ (by omega) (by omega))

theorem noRun_slice {src : Bytes} {n a b : Nat} (h : Clear src n a b) (hb : b ≤ src.length) (hab : a ≤ b) : NoRun n (sliceOf src ⟨a, b⟩) := by
  intro u w ht hu hlu hw
  have hget : ∀ j, a + j < b → src[a + j]? = (u ++ ticks n ++ w)[j]? := by
    intro j hj
    rw [← ht]
    unfold sliceOf
    simp only [List.getElem?_take, List.getElem?_drop]
    rw [if_pos (by omega)]
  have hlen : u.length + n + w.length = b - a := by
    have := congrArg List.length ht
    rw [slice_length hb] at this
    simp [ticks] at this
    omega
  refine h (a + u.length) ⟨by omega, by omega, ?_, ?_, ?_⟩ ?_
  · intro k k1 k2
    have := hget (k - a) (by omega)
    rw [show a + (k - a) = k by omega] at this
    rw [this, List.getElem?_append_left (by simp [ticks]; omega), List.getElem?_append_right (by omega)]
    simp [ticks, List.getElem?_replicate]
    omega
  · by_cases hu0 : u = []
    · left; simp [hu0]
    · right
      have hpos := List.length_pos_iff.2 hu0
      have := hget (u.length - 1) (by omega)
      rw [show a + (u.length - 1) = a + u.length - 1 by omega] at this
      rw [this, List.append_assoc, List.getElem?_append_left (by omega), ← List.getLast?_eq_getElem?]
      exact hlu
  · by_cases hw0 : w = []
    · left; subst hw0; simp at hlen; omega
    · right
      have hpos := List.length_pos_iff.2 hw0
      have := hget (u.length + n) (by omega)
      rw [← Nat.add_assoc] at this
      rw [this, List.getElem?_append_right (by simp [ticks])]
      simp [ticks]
      rw [← List.head?_eq_getElem?]
      exact hw
  · intro j j1 j2 hj
    have := hget (j - a) (by omega)
    rw [show a + (j - a) = j by omega, hj, List.append_assoc, List.getElem?_append_left (by omega)] at this
    exact hu (List.mem_of_getElem? this.symm)

theorem inside_slice {src : Bytes} {n a b : Nat} (h : Clear src n a b) (hb : b ≤ src.length) (hab : a ≤ b)
    (hs : SameLine src a b → src[b - 1]? ≠ some (c! '`')) : Inside n (sliceOf src ⟨a, b⟩) := by
  refine ⟨noRun_slice h hb hab, ?_⟩
  intro hnl hl
  have hlt : a < b := by
    refine Nat.lt_of_le_of_ne hab fun he => ?_
    subst he
    simp [sliceOf] at hl
  have hsl : SameLine src a b := fun j j1 j2 hj => hnl (mem_slice_iff.2 ⟨j, j1, j2, hj⟩)
  refine hs hsl ?_
  have hlen := slice_length (a := a) hb
  rw [List.getLast?_eq_getElem?, hlen] at hl
  have := (slice_get hl).1
  rw [show a + (b - a - 1) = b - 1 by omega] at this
  exact this

/-! ## Closing -/

theorem take_strs {lo hi : Nat} {N : Notes} {S : List Event} (hs : ∀ e ∈ S, e.kind = .str) (h : Bal N lo S hi) (n : Nat) : Bal N lo (S.take n) hi := by
  induction S generalizing lo n with
  | nil => simpa using h
  | cons e S ih =>
    have he := hs e (by simp)
    cases n with
    | zero => exact .nil h.le
    | succ n =>
      have h' := h
      generalize hes : e :: S = es at h
      cases h with
      | nil => cases hes
      | leaf a b d =>
        simp at hes
        obtain ⟨rfl, rfl⟩ := hes
        exact .leaf a b (ih (fun e h => hs e (by simp [h])) d n)
      | word a b =>
        simp at hes
        obtain ⟨rfl, _⟩ := hes
        rw [he] at a; cases a
      | node a b =>
        simp at hes
        obtain ⟨rfl, _⟩ := hes
        rw [he] at a; cases a
      | attr a b =>
        simp at hes
        obtain ⟨rfl, _⟩ := hes
        rw [he] at a; cases a

theorem weight_take (S : List Event) (n : Nat) : weight (S.take n) ≤ weight S := by
  have h := congrArg weight (List.take_append_drop n S)
  rw [weight_append] at h
  omega

theorem isVerbatim_store {ty : Container} (h : ty.isVerbatim = true) (n : Nat) : StoreOk n ty := by
  cases ty <;> simp [Container.isVerbatim] at h <;> trivial

theorem truncate_ok {v : VerbatimState} {A S : List Event} {ph op : Event}
    (h : ∀ k n, v.nonWsLast = some (k, n) → A.length + 1 < n ∧ n ≤ (A ++ ph :: op :: S).length) :
    ∃ m, truncateVerbatim v (A ++ ph :: op :: S) = .ok (A ++ ph :: op :: S.take m) := by
  have hall : ∃ m, (.ok (A ++ ph :: op :: S) : R (List Event)) = .ok (A ++ ph :: op :: S.take m) := ⟨S.length, by rw [List.take_length]⟩
  unfold truncateVerbatim
  split
  · rename_i skip hv
    obtain ⟨h1, h2⟩ := h _ _ hv
    rw [if_pos h2]
    refine ⟨skip - A.length - 2, ?_⟩
    rw [List.take_append, List.take_of_length_le (by omega : A.length ≤ skip)]
    have : skip - A.length = (skip - A.length - 2) + 1 + 1 := by omega
    rw [this]
    simp
  · exact hall

theorem closeVerbatim_ok (hc : c.Ok) {p : IP} {t : Lex.Token} (h : Mid c p t) {v : VerbatimState} (hv : p.verbatim = some v)
    (htk : t.kind = .seq .backtick) (htl : v.lenOpener = t.len) :
    Sat Never (p.closeVerbatim v) (Res c (fun _ => False)) := by
  have hq := h.queue
  rw [hv] at hq
  obtain ⟨A, ph, op, S, ty, m, a1, a2, a3, a4, a5, a6, ⟨a7, pre, ap, at'⟩, a8, a9, a10, a11⟩ := VerbQ.ex hq
  have htext : sliceOf c.src p.input.span = ticks v.lenOpener := by
    have := h.text (by rw [htk]; simp)
    rw [htk] at this
    have hl : (sliceOf c.src p.input.span).length = t.len := by
      rw [show p.input.span = ⟨p.input.span.start, p.input.span.stop⟩ from rfl, slice_length (h.inp.spanOk hc).len]
      exact this.2
    have h1 := this.1
    unfold Lex.TextOf at h1
    rw [hl, ← htl] at h1
    exact h1
  have hpot := h.pot
  unfold Inline.pot at hpot
  rw [hv, a1] at hpot
  simp only [Option.isSome_some, if_true, weight_append, weight_cons] at hpot
  have hne := h.ne
  have hinside : Inside v.lenOpener (sliceOf c.src ⟨op.span.stop, p.input.span.start⟩) := by
    obtain ⟨g1, g2⟩ := h.vb v op hv (by rw [a1, a2]; simp)
    have := (h.inp.spanOk hc).len
    exact inside_slice g1 (by omega) a10.le (fun hs => (g2 hs).1 htk)
  unfold IP.closeVerbatim IP.rawFormat
  obtain ⟨r, hr1, hr2⟩ := (aheadRawFormat_ok hc h.inp).exists_ok
  rw [hr1]
  simp only [Bind.bind, Except.bind]
  have hph := h.evs ph (by rw [a1]; simp)
  have hop := h.evs op (by rw [a1]; simp)
  have hwop : wt op = 1 := wt_kind (.inr (.inr (.inl ⟨_, a6⟩)))
  -- the state after closing
  have key : ∀ (i' : Input) (ty' : Container) (n : Nat), InpOk c i' → i'.ahead = p.input.ahead → i'.span.start = p.input.span.start → p.input.span.stop ≤ i'.span.stop →
      ty'.isVerbatim = true → i'.spanLine = p.input.spanLine → (∀ w, Delim c.src p.storeCowstrs w ty' (sliceOf c.src op.span) (sliceOf c.src ⟨op.span.stop, p.input.span.start⟩) (sliceOf c.src i'.span)) →
      Pre c ({ p with
        input := { i' with lexer := { i'.lexer with verbatim := false } }
        events := (A ++ ph :: { op with kind := .enter ty' } :: S.take n) ++ [⟨.exit ty', i'.span⟩]
        verbatim := none }) (.container A.length) i'.span.stop ∧ c.q < i'.span.stop := by
    intro i' ty' n g1 g2 g3 g4 g5 g6 g7
    have hle := g1.le
    refine ⟨⟨g1.lex (g1.rem.verbatim false), h.attr, rfl, ?_, ?_, h.store, ?_, ?_, by have := h.q; omega, ?_⟩, by have := h.q; omega⟩
    · refine ⟨A, ph, { op with kind := .enter ty' }, S.take n, ⟨.exit ty', i'.span⟩, m, by simp, rfl, a3.move rfl rfl (mem_lines g6 g2), a4, a5, a8, ?_, hle, rfl, .inl ⟨ty', rfl, rfl, by simp only; rw [g3]; exact g7 _⟩⟩
      simp only
      rw [g3]
      exact (take_strs a9 a10 n).move rfl rfl
    · intro e he
      simp at he
      rcases he with he | rfl | rfl | he | rfl
      · exact h.evs e (by rw [a1]; simp [he])
      · exact hph
      · exact ⟨hop.span, isVerbatim_store g5 _, trivial⟩
      · exact h.evs e (by rw [a1]; simp [List.mem_of_mem_take he])
      · exact ⟨g1.spanOk hc, isVerbatim_store g5 _, trivial⟩
    · exact LastOk.append (by simp)
    · rw [pot_none rfl]
      simp only [weight_append, weight_cons, weight_nil]
      rw [wt_kind (e := ⟨.exit ty', i'.span⟩) (.inr (.inr (.inr (.inl ⟨_, rfl⟩)))), wt_kind (e := ⟨.enter ty', op.span⟩) (.inr (.inr (.inl ⟨_, rfl⟩)))]
      have := weight_take S n
      omega
    · simp only; rw [g2]; exact h.al
  have henter : ∀ ty', enterAt (A ++ ph :: { op with kind := .enter ty' } :: S) v.eventOpener = .ok ty' := by
    intro ty'
    have : A ++ ph :: ({ op with kind := .enter ty' } : Event) :: S = (A ++ [ph]) ++ ({ op with kind := .enter ty' } : Event) :: S := by simp
    unfold enterAt
    rw [this, idx_at (by simp [a2])]
    rfl
  have hlen : (∀ op' : Event, (A ++ ph :: op :: S).length = (A ++ ph :: op' :: S).length) := by intro op'; simp
  cases hx : r.1 with
  | some sp =>
    obtain ⟨b1, b2, b3, b4, b5, b6⟩ := hr2.some sp hx
    simp only
    have hsrc : r.2.src = c.src := b2.src
    have hslice : strSlice r.2.src sp.start sp.stop = .ok (sliceOf c.src sp) := by rw [hsrc]; exact b1.slice
    rw [hslice]
    simp only
    have hset : setKind p.events v.eventOpener (.enter (.rawFormat (sliceOf c.src sp))) =
        .ok (A ++ ph :: { op with kind := .enter (.rawFormat (sliceOf c.src sp)) } :: S) := by
      have : A ++ ph :: op :: S = (A ++ [ph]) ++ op :: S := by simp
      rw [a1, this, setKind_at (by simp [a2])]
      simp
    rw [hset]
    simp only [Pure.pure, Except.pure]
    rw [henter]
    simp only [Container.isVerbatim, dassert, if_true]
    obtain ⟨n, hn⟩ := truncate_ok (v := v) (A := A) (S := S) (ph := ph) (op := { op with kind := .enter (.rawFormat (sliceOf c.src sp)) })
      (by intro k n hk; rw [← hlen, ← a1]; exact a11 k n hk)
    rw [hn]
    simp only
    obtain ⟨k1, k2⟩ := key { r.2 with span := ⟨r.2.span.start, sp.stop + 1⟩ } (.rawFormat (sliceOf c.src sp)) n b2 hr2.ahead b3 (by simp only; omega) rfl hr2.line
      (by
        refine fun _ => ⟨v.lenOpener, pre, a7, ?_, at', ?_, hinside, b6⟩
        · cases ty <;> simp [verbPre] at ap <;> subst ap
          · exact .inl rfl
          · exact .inr (.inl rfl)
          · exact .inr (.inr rfl)
        · have hb := b2.spanOk hc
          have := h.inp.le
          rw [b3]
          simp only at b3 ⊢
          rw [← slice_append (b := p.input.span.stop) (by omega) (by omega) (by have := hb.len; simpa using this), b5, htext]
          simp)
    have := Pre.adv k1 rfl k2
    exact this
  | none =>
    obtain ⟨b1, b2⟩ := hr2.none hx
    simp only [Pure.pure, Except.pure]
    have hop' : ({ op with kind := .enter ty } : Event) = op := by cases op; simp at a6; simp [a6]
    have he := henter ty
    rw [hop', ← a1] at he
    rw [he]
    simp only [verbPre_isVerbatim ap, dassert, if_true]
    obtain ⟨n, hn⟩ := truncate_ok (v := v) (A := A) (S := S) (ph := ph) (op := op) (by intro k n hk; rw [← a1]; exact a11 k n hk)
    rw [a1, hn]
    simp only [Bool.false_eq_true, if_false]
    obtain ⟨k1, k2⟩ := key r.2 ty n b1 hr2.ahead (by rw [b2]) (by rw [b2]; exact Nat.le_refl _) (verbPre_isVerbatim ap) hr2.line
      (by
        have at2 : sliceOf c.src op.span = pre ++ ticks v.lenOpener := at'
        rw [b2, htext, at2]
        cases ty <;> simp [verbPre] at ap <;> subst ap <;> exact fun _ => ⟨_, a7, by simp, .inl ⟨rfl, hinside⟩⟩)
    rw [hop'] at k1
    have := afterAttrs_ok hc k1 k2
    unfold IP.afterVerbatim
    rw [a2, csub_ok (by omega), Nat.add_sub_cancel]
    simp only [Bind.bind, Except.bind]
    exact this

/-! ## Continuing -/

theorem VerbQ.push {N : Notes} {v v' : VerbatimState} {os : List (Opener × Nat)} {lo hi hi' : Nat} {es : List Event} (h : VerbQ N v os lo es hi) {e : Event}
    (he : e.kind = .str) (h1 : Fits hi e) (h2 : e.span.stop ≤ hi') (h3 : v'.eventOpener = v.eventOpener) (h3' : v'.lenOpener = v.lenOpener)
    (h4 : ∀ k n, v'.nonWsLast = some (k, n) → v.nonWsLast = some (k, n) ∨ n = es.length + 1) : VerbQ N v' os lo (es ++ [e]) hi' := by
  obtain ⟨A, ph, op, S, ty, m, a1, a2, a3, a4, a5, a6, a7, a8, a9, a10, a11⟩ := h.ex
  refine ⟨A, ph, op, S ++ [e], ty, m, by simp [a1], by rw [h3, a2], a3, a4, a5, a6, by rw [h3']; exact a7, a8, ?_, a10.append (.one (.inl he) h1 h2), ?_⟩
  · intro x hx
    simp at hx
    rcases hx with hx | rfl
    · exact a9 x hx
    · exact he
  · intro k n hk
    rcases h4 k n hk with h5 | rfl
    · have := a11 k n h5
      simp at *; omega
    · simp [a1]; omega

theorem Mid.strEv (hc : c.Ok) {p : IP} {t : Lex.Token} (h : Mid c p t) : EvOk c.src p.storeCowstrs.length p.storeAttributes.length ⟨.str, p.input.span⟩ :=
  ⟨h.inp.spanOk hc, trivial, trivial⟩

theorem EvsOk.push {p : IP} {k : EventKind} {sp : Span} (h : EvsOk c.src p) (h1 : EvOk c.src p.storeCowstrs.length p.storeAttributes.length ⟨k, sp⟩) :
    EvsOk c.src (p.pushSp k sp) := by
  intro e he
  simp [IP.pushSp] at he
  rcases he with he | rfl
  · exact h e he
  · exact h1

/-- The state after a token of verbatim text. -/
theorem Mid.continued (hc : c.Ok) {p : IP} {t : Lex.Token} (h : Mid c p t) {v : VerbatimState} (hv : p.verbatim = some v) (hno : ¬(v.lenOpener = t.len ∧ t.kind = .seq .backtick))
    {v' : VerbatimState} {es : List Event} {l : Lex.Lexer} (h3 : v'.eventOpener = v.eventOpener) (h3' : v'.lenOpener = v.lenOpener)
    (hl : Lex.VMode p.input.lexer (sliceOf c.src ⟨p.input.span.stop, p.input.spanLine.stop⟩) → Lex.VMode l (sliceOf c.src ⟨p.input.span.stop, p.input.spanLine.stop⟩)) :
    VLive c { p with input := { p.input with lexer := l }, verbatim := some v', events := p.events ++ es } := by
  have hq : VerbQ (nts c p) v p.openers c.lo p.events p.input.span.start := by have := h.queue; rw [hv] at this; exact this
  obtain ⟨A, ph, op, S, ty, m, a1, a2, a3, a4, a5, a6, ⟨a7, -⟩, a8, a9, a10, a11⟩ := VerbQ.ex hq
  have hop : p.events[v.eventOpener]? = some op := by rw [a1, a2]; simp
  obtain ⟨g1, g2⟩ := h.vb v op hv hop
  have hne := h.ne
  have hlen := (h.inp.spanOk hc).len
  have hle := a10.le
  intro v2 op' hv2 hop'
  simp only [Option.some.injEq] at hv2
  subst hv2
  simp only at hop' ⊢
  rw [h3, List.getElem?_append_left (by rw [a1, a2]; simp), hop] at hop'
  injection hop' with hop'
  subst hop'
  rw [h3']
  have hticks : t.kind = .seq .backtick → (∀ j, p.input.span.start ≤ j → j < p.input.span.stop → c.src[j]? = some (c! '`')) ∧ p.input.span.stop = p.input.span.start + t.len := by
    intro hk
    have := h.text (by rw [hk]; simp)
    rw [hk] at this
    have h1 := this.1
    have h2 := this.2
    unfold Span.len at h2
    refine ⟨?_, by omega⟩
    intro j j1 j2
    unfold Lex.TextOf at h1
    have h4 : (sliceOf c.src p.input.span)[j - p.input.span.start]? = some (c! '`') := by
      have hsl : (sliceOf c.src p.input.span).length = p.input.span.stop - p.input.span.start := slice_length (a := p.input.span.start) (b := p.input.span.stop) hlen
      rw [h1, List.getElem?_replicate, if_pos (by omega)]
      rfl
    have := (slice_get (a := p.input.span.start) (b := p.input.span.stop) h4).1
    rw [show p.input.span.start + (j - p.input.span.start) = j by omega] at this
    exact this
  refine ⟨clear_step g1 hne ?_ hle a7, ?_⟩
  · intro hs
    obtain ⟨b1, b2, b3, b4⟩ := g2 hs
    by_cases hk : t.kind = .seq .backtick
    · obtain ⟨t1, t2⟩ := hticks hk
      exact .inl ⟨t1, fun he => hno ⟨by omega, hk⟩, b1 hk⟩
    · exact .inr (fun j j1 j2 hj => b3 hk (mem_slice_iff.2 ⟨j, j1, j2, hj⟩))
  · intro hs hr
    obtain ⟨b1, b2, b3, b4⟩ := g2 (fun j j1 j2 => hs j j1 (by omega))
    refine ⟨?_, hl b4⟩
    intro hh
    by_cases hk : t.kind = .seq .backtick
    · exact absurd hh (b2 hk)
    · intro hj
      have x1 : p.input.span.start ≤ p.input.span.stop - 1 := by omega
      have x2 : p.input.span.stop - 1 < p.input.span.stop := by omega
      exact b3 hk (mem_slice_iff.2 ⟨p.input.span.stop - 1, x1, x2, hj⟩)

theorem continueVerbatim_ok (hc : c.Ok) {p : IP} {t : Lex.Token} (h : Mid c p t) {v : VerbatimState} (hv : p.verbatim = some v)
    (hno : ¬(v.lenOpener = t.len ∧ t.kind = .seq .backtick)) :
    Sat Never (p.continueVerbatim v t) (Res c (fun _ => False)) := by
  have hq : VerbQ (nts c p) v p.openers c.lo p.events p.input.span.start := by have := h.queue; rw [hv] at this; exact this
  have hsp := h.inp.spanOk hc
  have hpot := h.pot
  unfold Inline.pot at hpot
  rw [hv] at hpot
  simp only [Option.isSome_some, if_true] at hpot
  have hne := h.ne
  have hlen := hsp.len
  unfold IP.continueVerbatim
  have hbs : byteSlice p.input.src p.input.span.start p.input.span.stop = .ok (sliceOf c.src p.input.span) := by
    unfold byteSlice
    rw [h.inp.src, if_pos ⟨hsp.le, hsp.len⟩]; rfl
  rw [hbs]
  simp only [Bind.bind, Except.bind]
  have push : ∀ (l : Lex.Lexer) (v' : VerbatimState), Lex.Rem l (sliceOf c.src ⟨p.input.span.stop, p.input.spanLine.stop⟩) →
      (Lex.VMode p.input.lexer (sliceOf c.src ⟨p.input.span.stop, p.input.spanLine.stop⟩) → Lex.VMode l (sliceOf c.src ⟨p.input.span.stop, p.input.spanLine.stop⟩)) → v'.eventOpener = v.eventOpener → v'.lenOpener = v.lenOpener →
      (∀ k n, v'.nonWsLast = some (k, n) → v.nonWsLast = some (k, n) ∨ n = p.events.length + 1) →
      Adv c (({ p with input := { p.input with lexer := l }, verbatim := some v' } : IP).push .str) := by
    intro l v' hl hm h3 h3' h4
    refine ⟨⟨h.inp.lex hl, h.attr, ?_, h.evs.push ⟨hsp, trivial, trivial⟩, h.store, LastOk.append (fun _ => .inl hne), ?_, h.continued hc hv hno h3 h3' hm⟩, h.q, h.al⟩
    · exact hq.push rfl ⟨Nat.le_refl _, hsp.le⟩ (Nat.le_refl _) h3 h3' h4
    · show weight (p.events ++ [⟨.str, p.input.span⟩]) + 3 * (c.src.length - p.input.span.stop) + 1 ≤ c.K
      simp [wt_str, Span.len]
      omega
  have drop : ∀ (l : Lex.Lexer), Lex.Rem l (sliceOf c.src ⟨p.input.span.stop, p.input.spanLine.stop⟩) →
      (Lex.VMode p.input.lexer (sliceOf c.src ⟨p.input.span.stop, p.input.spanLine.stop⟩) → Lex.VMode l (sliceOf c.src ⟨p.input.span.stop, p.input.spanLine.stop⟩)) → Adv c ({ p with input := { p.input with lexer := l } } : IP) := by
    intro l hl hm
    have hvl := h.continued hc hv hno (v' := v) (es := []) (l := l) rfl rfl hm
    rw [List.append_nil, ← hv] at hvl
    refine ⟨⟨h.inp.lex hl, h.attr, QueueOk.hi h.queue hsp.le, h.evs, h.store, h.last, ?_, hvl⟩, h.q, h.al⟩
    unfold Inline.pot
    rw [hv]
    simp only [Option.isSome_some, if_true]
    omega
  split
  · refine Sat.pure ?_
    show Adv c (p.verbatimWs v)
    unfold IP.verbatimWs
    obtain ⟨l, hl, hpk⟩ := h.inp.peek
    have hll : l = p.input.lexer.peek.2 := by have := congrArg Input.lexer hl; simpa [Input.peek] using this.symm
    have hpv : Lex.VMode p.input.lexer (sliceOf c.src ⟨p.input.span.stop, p.input.spanLine.stop⟩) → Lex.VMode l (sliceOf c.src ⟨p.input.span.stop, p.input.spanLine.stop⟩) := by
      rw [hll]; exact fun hv => Lex.peek_v hv h.inp.rem
    split
    · simp only
      rw [hl]
      split
      · exact drop l hpk.rem hpv
      · have := push l v hpk.rem hpv rfl rfl (fun _ _ h => .inl h)
        rw [← hv] at this
        exact this
    · have := push p.input.lexer v h.inp.rem id rfl rfl (fun _ _ h => .inl h)
      rw [← hv] at this
      exact this
  · refine Sat.pure ?_
    refine push p.input.lexer _ h.inp.rem id rfl rfl ?_
    intro k n hk
    simp at hk
    exact .inr hk.2.symm

/-! ## Opening -/

theorem notEscaped_ok {src : Bytes} {stop d : Nat} (h : stop ≤ src.length) (hd : 0 < d) : ∃ b, notEscaped src stop d = .ok b := by
  unfold notEscaped
  split
  · have : stop - d < src.length := by omega
    simp [idx, List.getElem?_eq_getElem this, Bind.bind, Except.bind, Pure.pure, Except.pure]
  · exact ⟨_, rfl⟩

structure Dollar (src : Bytes) (es : List Event) (n : Nat) (sp : Span) : Prop where
  ex : ∃ e, es.getLast? = some e ∧ e.kind = .str ∧ e.span = sp
  stop : sp.stop = n
  lt : sp.start < sp.stop
  at_ : src[sp.stop - 1]? = some (c! '$')

theorem dollarSpan_ok (hc : c.Ok) {p : IP} {t : Lex.Token} (h : Mid c p t) :
    Sat Never p.dollarSpan (fun r => ∀ sp, r = some sp → Dollar c.src p.events p.input.span.start sp) := by
  have hlen := (h.inp.spanOk hc).len
  have hle := (h.inp.spanOk hc).le
  unfold IP.dollarSpan
  cases hl : p.events.getLast? with
  | none => exact fun _ h => by cases h
  | some e =>
    simp only
    split
    · rename_i hk
      split
      · rename_i hst
        have hsp := (h.evs e (List.mem_of_getLast? hl)).span
        have hlast := (h.last e hl).2 hk
        have h0 := hsp.le
        have hsum : e.span.start + e.span.len = e.span.stop := by unfold Span.len; omega
        rw [hsum]
        have hpos : 1 ≤ e.span.stop := by rcases hlast with h | h <;> omega
        rw [csub_ok hpos]
        simp only [Bind.bind, Except.bind]
        have hlt : e.span.stop - 1 < c.src.length := by have := hsp.len; omega
        have hget := List.getElem?_eq_getElem hlt
        rw [h.inp.src]
        unfold idx
        rw [hget]
        simp only
        split
        · rename_i hd
          obtain ⟨b, hb⟩ := notEscaped_ok (d := 2) hsp.len (by omega)
          rw [hb]
          simp only
          intro sp hsp2
          split at hsp2
          · injection hsp2 with hsp2
            subst hsp2
            refine ⟨⟨e, hl, hk, rfl⟩, hst, ?_, by rw [hget, hd]⟩
            rcases hlast with h | ⟨h1, h2⟩
            · exact h
            · rcases Nat.lt_or_ge e.span.start e.span.stop with h3 | h3
              · exact h3
              · have : e.span.start = e.span.stop := by omega
                rw [this, hget, hd] at h2
                simp at h2
          · cases hsp2
        · exact fun _ h => by cases h
      · exact fun _ h => by cases h
    · exact fun _ h => by cases h

theorem isDisplayMath_ok {src : Bytes} {sp : Span} (h : SpanOk src sp) :
    Sat Never (isDisplayMath src sp) (fun b => b = true → sp.start + 2 ≤ sp.stop ∧ src[sp.stop - 2]? = some (c! '$')) := by
  have h0 := h.le
  have h1 := h.len
  unfold isDisplayMath
  split
  · rename_i hl
    unfold Span.len at hl
    have hsum : sp.start + sp.len = sp.stop := by unfold Span.len; omega
    rw [hsum, csub_ok (by omega)]
    simp only [Bind.bind, Except.bind]
    have hlt : sp.stop - 2 < src.length := by omega
    have hget := List.getElem?_eq_getElem hlt
    unfold idx
    rw [hget]
    simp only
    split
    · rename_i hd
      obtain ⟨b, hb⟩ := notEscaped_ok (d := 3) h.len (by omega)
      rw [hb]
      exact fun _ => ⟨by omega, by rw [hd]⟩
    · exact fun h => by cases h
  · exact fun h => by cases h

/-- After the dollars are taken from the text. -/
structure MathOk (c : Cx) (p : IP) (t : Lex.Token) (r : IP × Container) : Prop where
  pre : ∃ pre, verbPre r.2 = some pre ∧ sliceOf c.src r.1.input.span = pre ++ sliceOf c.src p.input.span
  inp : InpOk c r.1.input
  attr : r.1.attributes = none
  verb : r.1.verbatim = none
  lay : Lay (nts c r.1) r.1.openers c.lo r.1.events r.1.input.span.start
  evs : EvsOk c.src r.1
  store : ∀ a ∈ r.1.storeAttributes, GoodAttrs a
  pot : weight r.1.events + 3 * (c.src.length - p.input.span.start) ≤ c.K
  stop : r.1.input.span.stop = p.input.span.stop
  al : r.1.input.ahead.length ≤ c.al
  line : r.1.input.spanLine = p.input.spanLine
  lexer : r.1.input.lexer = p.input.lexer

theorem mathSpan_ok (hc : c.Ok) {p : IP} {t : Lex.Token} (h : Mid c p t) (hv : p.verbatim = none) {o : Option Span}
    (ho : ∀ sp, o = some sp → Dollar c.src p.events p.input.span.start sp) : Sat Never (p.mathSpan o) (MathOk c p t) := by
  have hlay : Lay (nts c p) p.openers c.lo p.events p.input.span.start := by have := h.queue; rw [hv] at this; exact this
  have hpot := h.pot
  rw [pot_none hv] at hpot
  have hne := h.ne
  unfold IP.mathSpan
  cases o with
  | none => exact ⟨⟨[], rfl, rfl⟩, h.inp, h.attr, hv, hlay, h.evs, h.store, hpot, rfl, h.al, rfl, rfl⟩
  | some sp =>
    obtain ⟨⟨e, e1, e2, e3⟩, d1, d2, d3⟩ := ho sp rfl
    have hmem := List.mem_of_getLast? e1
    have hsp := (h.evs e hmem).span
    rw [e3] at hsp
    have hev : p.events = p.events.dropLast ++ [e] := by
      obtain ⟨ys, hys⟩ := List.getLast?_eq_some_iff.1 e1
      rw [hys]; simp
    rw [h.inp.src]
    simp only
    obtain ⟨disp, k1, k2⟩ := (isDisplayMath_ok hsp).exists_ok
    rw [k1]
    simp only [Bind.bind, Except.bind]
    have hb : ∃ b, csub sp.stop (if disp then 2 else 1) = .ok b ∧ sp.start ≤ b ∧ b ≤ sp.stop ∧ Bd (c.src.drop b) ∧
        sliceOf c.src ⟨b, sp.stop⟩ = if disp then b! "$$" else b! "$" := by
      have hl := hsp.len
      cases disp with
      | true =>
        obtain ⟨k3, k4⟩ := k2 rfl
        refine ⟨sp.stop - 2, csub_ok (by simp; omega), by omega, by omega, bd_at k4 (by decide), ?_⟩
        rw [slice_last (by omega) hl d3, slice_last (by omega) (by omega) (show c.src[sp.stop - 1 - 1]? = _ from k4)]
        simp [sliceOf, show sp.stop - 1 - 1 - (sp.stop - 2) = 0 by omega]
      | false =>
        refine ⟨sp.stop - 1, csub_ok (by simp; omega), by omega, by omega, bd_at d3 (by decide), ?_⟩
        rw [slice_last (by omega) hl d3]
        simp [sliceOf]
    obtain ⟨b, b1, b2, b3, b4, b5⟩ := hb
    rw [b1]
    simp only
    refine ⟨⟨if disp then b! "$$" else b! "$", by cases disp <;> rfl, ?_⟩, ?_, h.attr, hv, ?_, ?_, h.store, ?_, rfl, h.al, rfl, rfl⟩
    · have := (h.inp.spanOk hc).len
      simp only
      rw [← b5, d1]
      exact (slice_append (by omega) (by omega) (by omega)).symm
    · exact ⟨h.inp.src, h.inp.cpl, by simp only; omega, h.inp.stop, b4, h.inp.be, h.inp.bl, h.inp.rem, h.inp.chain, h.inp.nl, h.inp.ls⟩
    · rw [hev] at hlay
      have hd : (sliceOf c.src e.span).getLast? = some (c! '$') := by
        rw [e3, show sp = ⟨sp.start, sp.stop⟩ from rfl, slice_last d2 hsp.len d3]
        simp
      have := hlay.shrink e2 hd (b := b) (by rw [e3]; exact b2)
      rw [e3] at this
      exact this.move rfl rfl (mem_lines rfl rfl)
    · intro x hx
      simp at hx
      rcases hx with hx | rfl
      · exact h.evs x (List.dropLast_subset _ hx)
      · exact ⟨⟨b2, by have := hsp.len; simp only; omega, hsp.bs, b4⟩, trivial, trivial⟩
    · have : weight p.events = weight p.events.dropLast + wt e := by
        conv => lhs; rw [hev]
        simp
      rw [wt_str e2, e3] at this
      unfold Span.len at this
      simp [wt_str, Span.len]
      omega

theorem openVerbatim_ok (hc : c.Ok) {p : IP} {t : Lex.Token} (h : Mid c p t) (hv : p.verbatim = none) (htk : t.kind = .seq .backtick) :
    Sat Never (p.openVerbatim t) (Res c (fun p' => p' = p)) := by
  unfold IP.openVerbatim
  split
  · obtain ⟨o, o1, o2⟩ := (dollarSpan_ok hc h).exists_ok
    rw [o1]
    simp only [Bind.bind, Except.bind]
    obtain ⟨r, r1, r2⟩ := (mathSpan_ok hc h hv o2).exists_ok
    rw [r1]
    simp only
    refine Sat.pure ?_
    have hsp := r2.inp.spanOk hc
    have hne := h.ne
    have hst := r2.stop
    have htext : sliceOf c.src p.input.span = ticks t.len ∧ 0 < t.len := by
      have := h.text (by rw [htk]; simp)
      rw [htk] at this
      have hl : (sliceOf c.src p.input.span).length = t.len := by
        rw [show p.input.span = ⟨p.input.span.start, p.input.span.stop⟩ from rfl, slice_length (h.inp.spanOk hc).len]
        exact this.2
      have h1 := this.1
      have h2 := this.2
      unfold Lex.TextOf at h1
      rw [hl] at h1
      unfold Span.len at h2
      exact ⟨h1, by omega⟩
    obtain ⟨pre, q1, q2⟩ := r2.pre
    refine ⟨⟨r2.inp.lex (r2.inp.rem.verbatim true), rfl, ?_, ?_, r2.store, LastOk.append (by simp), ?_, ?_⟩, ?_, r2.al⟩
    · refine ⟨r.1.events, ⟨.placeholder, ⟨r.1.input.span.start, r.1.input.span.start⟩⟩, ⟨.enter r.2, r.1.input.span⟩, [], r.2, r.1.input.span.start, ?_, ?_, r2.lay.move rfl rfl (mem_lines rfl rfl), ⟨rfl, rfl⟩,
        ⟨Nat.le_refl _, Nat.le_refl _⟩, rfl, ⟨htext.2, pre, q1, by rw [← htext.1]; exact q2⟩, ⟨Nat.le_refl _, hsp.le⟩, by simp, .nil (Nat.le_refl _), ?_⟩
      · simp [IP.push, IP.pushSp]
      · simp [IP.pushSp]
      · intro k n hk; simp at hk
    · refine EvsOk.push (EvsOk.push r2.evs ⟨hsp.at_start, trivial, trivial⟩) ⟨hsp, isVerbatim_store (verbPre_isVerbatim q1) _, trivial⟩
    · show weight (r.1.events ++ [_] ++ [_]) + 3 * (c.src.length - r.1.input.span.stop) + 1 ≤ c.K
      have := r2.pot
      have := (h.inp.spanOk hc).len
      simp [wt, Span.len]
      omega
    · intro v op hv' hop
      injection hv' with hv'
      subst hv'
      simp [IP.push, IP.pushSp] at hop
      subst hop
      refine ⟨?_, ?_⟩
      · rintro i ⟨i1, i2, -⟩
        simp only [IP.push, IP.pushSp] at i1 i2
        omega
      · intro _ _
        obtain ⟨e1, e2, e3⟩ := h.esc htk
        show ((sliceOf c.src ⟨r.1.input.span.stop, r.1.input.spanLine.stop⟩).head? = _ → _) ∧ _
        refine ⟨fun hh => ?_, rfl, ?_, ?_⟩
        · rw [r2.stop, r2.line] at hh; exact absurd hh e2
        · show r.1.input.lexer.escape = false
          rw [r2.lexer]; exact e1
        · intro t' ht'
          have : r.1.input.lexer.next = some t' := ht'
          rw [r2.lexer, e3] at this
          cases this
    · show c.q < r.1.input.span.stop
      rw [hst]; exact h.q
  · exact rfl

theorem parseVerbatim_ok (hc : c.Ok) {p : IP} {t : Lex.Token} (h : Mid c p t) :
    Sat Never (p.parseVerbatim t) (Res c (fun p' => p' = p ∧ p.verbatim = none)) := by
  unfold IP.parseVerbatim
  cases hv : p.verbatim with
  | some v =>
    simp only
    split
    · rename_i hk
      refine (closeVerbatim_ok hc h hv hk.2 hk.1).mono ?_
      intro r hr
      unfold Res at *
      cases h1 : r.2 with
      | none => rw [h1] at hr; exact hr.elim
      | some f => rw [h1] at hr; cases f <;> exact hr
    · rename_i hno
      refine (continueVerbatim_ok hc h hv hno).mono ?_
      intro r hr
      unfold Res at *
      cases h1 : r.2 with
      | none => rw [h1] at hr; exact hr.elim
      | some f => rw [h1] at hr; cases f <;> exact hr
  | none =>
    simp only
    split
    · rename_i hk
      refine (openVerbatim_ok hc h hv hk).mono ?_
      intro r hr
      unfold Res at *
      cases h1 : r.2 with
      | none => rw [h1] at hr; exact ⟨hr, trivial⟩
      | some f => rw [h1] at hr; cases f <;> exact hr
    · exact ⟨rfl, trivial⟩

end Jotdown.Inline
