import Verif.Proofs.AttrItems
/-! # Properties of attribute syntax: C03, C09, C10 -/
namespace Jotdown.Attr
open Jotdown

theorem reach_writeAttrs {w : Bytes} (hw : ∀ c ∈ w, isWs c = true) (items : List (Item × Bytes))
    (h : WellSeparated items) :
    Reach (⟨[], .start⟩, []) (writeAttrs w items) ⟨items.map (·.1.elem), .done⟩ := by
  unfold writeAttrs
  rw [List.append_assoc, List.append_assoc]
  refine Reach.append (p := ⟨[], .whitespace⟩) ?_ (fun ct => ?_)
  · exact ⟨_, by rw [frun_cons, fstep_flush (st := .start) (st' := .whitespace) (by simp) (by decide) (by simp) (by decide)]; rfl⟩
  · refine (reach_ws hw).append (fun ct' => ?_)
    have := reach_items (A := []) (ct := ct') items h
    simpa using this

theorem parses_writeAttrs (w : Bytes) (hw : ∀ c ∈ w, isWs c = true) (items : List (Item × Bytes))
    (h : WellSeparated items) (hu : Bd (writeAttrs w items) ∧ Safe (writeAttrs w items)) :
    Parses (writeAttrs w items) (items.map (·.1.elem)) := by
  show parseAttributes [] _ = _
  rw [parseAttributes_ok_iff hu.1 hu.2]
  have : trimEnd (writeAttrs w items) = writeAttrs w items := by
    unfold writeAttrs; exact trimEnd_concat (by decide)
  rw [this]
  exact reach_writeAttrs hw items h

/-- C03: attribute elements written in djot syntax, with arbitrary whitespace around them, come out
as exactly these elements in the same order. -/
theorem C03_attr_grammar (w : Bytes) (hw : ∀ c ∈ w, isWs c = true) (items : List (Item × Bytes))
    (h : WellSeparated items) (hu : Utf8 (writeAttrs w items)) :
    Parses (writeAttrs w items) (items.map (·.1.elem)) :=
  parses_writeAttrs w hw items h ⟨hu.bd, hu.safe⟩

/-- Not vacuous: one element of every kind, duplicates, an escaped quote, several lines. -/
example : ∃ items : List (Item × Bytes), WellSeparated items ∧
    writeAttrs (b! " ") items = b! "{ .a #b k=v\tk=\"x\\\"\n\ny \"%c%%d% .a}" ∧
    items.map (·.1.elem) = [(.cls, b! "a"), (.id, b! "b"), (.pair (b! "k"), b! "v"), (.pair (b! "k"), b! "x\\\" y "),
      (.comment, b! "c"), (.comment, b! "d"), (.cls, b! "a")] := by
  refine ⟨[(.cls (b! "a"), b! " "), (.id (b! "b"), b! " "), (.bare (b! "k") (b! "v"), b! "\t"),
    (.quoted (b! "k") (b! "x\\\"\n\ny "), []), (.comment (b! "c"), []), (.comment (b! "d"), b! " "),
    (.cls (b! "a"), [])], ?_, by decide +kernel, by decide +kernel⟩
  simp only [WellSeparated, Item.Ok]
  decide +kernel

/-! ## C10 -/

/-- C10 in full: quoted text with properly escaped quotes is accepted and its non-empty lines,
joined by single spaces, are the value. -/
def C10_full : Prop := ∀ text, EscOk text = true → Utf8 text →
  Parses (b! "{k=\"" ++ text ++ b! "\"}") [(.pair (b! "k"), joinNonEmpty (splitLines text))]

/-- C10 does not hold: text before a backslash at the end of a line is lost. -/
theorem C10_escaped_newline_loses_text : ¬ C10_full := by
  intro h
  have h1 := h (b! "abc\\\ndef") (by decide +kernel) (utf8_ascii (by decide +kernel))
  have h2 : Parses (b! "{k=\"" ++ b! "abc\\\ndef" ++ b! "\"}") [(.pair (b! "k"), b! "def")] := by
    unfold Parses; decide +kernel
  unfold Parses at h1 h2
  rw [h1] at h2
  revert h2; decide +kernel

/-- C10 for text whose first line has complete escapes (in particular does not end with a single
backslash) and whose other lines have no quotes. Missing: the texts of the counterexample above, and
escaped quotes in later lines (which end the value). -/
theorem C10_quoted_value_partial (k text : Bytes) (hk : Name k) (ht : QuotedOk text)
    (hu : Utf8 (b! "{" ++ k ++ b! "=\"" ++ text ++ b! "\"}")) :
    Parses (b! "{" ++ k ++ b! "=\"" ++ text ++ b! "\"}") [(.pair k, joinNonEmpty (splitLines text))] := by
  have hw : writeAttrs [] [(.quoted k text, [])] = b! "{" ++ k ++ b! "=\"" ++ text ++ b! "\"}" := by
    simp [writeAttrs, Item.text]
  rw [← hw] at hu ⊢
  exact C03_attr_grammar [] (by simp) [(.quoted k text, [])] ⟨⟨hk, ht⟩, by simp, by simp, trivial⟩ hu

/-- Not vacuous: several lines, runs of newlines, an escaped quote. -/
example : QuotedOk (b! "a \\\" b\n\n c\nd\\\n") ∧
    joinNonEmpty (splitLines (b! "a \\\" b\n\n c\nd\\\n")) = b! "a \\\" b  c d\\" := by
  decide +kernel

/-! ## C09 -/

/-- Scanning with escapes meets no unescaped quote (a backslash at the end is allowed). -/
def NoBareQuote : Bytes → Bool
  | [] => true
  | [c] => c != c! '"'
  | c :: d :: r => if c = c! '\\' then NoBareQuote r else c != c! '"' && NoBareQuote (d :: r)

theorem noBareQuote_of_escOk_append {a b : Bytes} (ha : EscOk a = true) (hb : c! '"' ∉ b) :
    NoBareQuote (a ++ b) = true := by
  have hbq : ∀ b : Bytes, c! '"' ∉ b → NoBareQuote b = true := by
    intro b
    fun_induction NoBareQuote b with
    | case1 => simp
    | case2 c => intro h; simp at h ⊢; exact fun e => h e.symm
    | case3 d r ih => intro h; simp at h; exact ih h.2
    | case4 c d r hc ih =>
      intro h
      simp only [List.mem_cons, not_or] at h
      simp only [Bool.and_eq_true, bne_iff_ne, ne_eq]
      exact ⟨fun e => h.1 e.symm, ih (by simpa using ⟨h.2.1, h.2.2⟩)⟩
  fun_induction EscOk a with
  | case1 => exact hbq b hb
  | case2 c =>
    simp at ha
    cases b with
    | nil => simp [NoBareQuote, ha.1]
    | cons d b =>
      simp only [List.cons_append, List.nil_append]
      rw [NoBareQuote, if_neg ha.2]
      simp only [Bool.and_eq_true, bne_iff_ne, ne_eq]
      exact ⟨ha.1, hbq _ hb⟩
  | case3 d r ih =>
    simp only [List.cons_append]
    rw [NoBareQuote, if_pos rfl]
    exact ih ha
  | case4 c d r hc ih =>
    simp at ha
    simp only [List.cons_append]
    rw [NoBareQuote, if_neg hc]
    simp only [Bool.and_eq_true, bne_iff_ne, ne_eq]
    exact ⟨ha.1, ih ha.2⟩

theorem noBareQuote_append {a b : Bytes} (ha : NoBareQuote a = true) (hb : c! '"' ∉ b) :
    NoBareQuote (a ++ b) = true := by
  fun_induction NoBareQuote a with
  | case1 => exact noBareQuote_of_escOk_append (a := []) rfl hb
  | case2 c =>
    simp at ha
    cases b with
    | nil => simp [NoBareQuote, ha]
    | cons d b =>
      simp only [List.cons_append, List.nil_append]
      rw [NoBareQuote]
      split
      · simp at hb
        exact noBareQuote_of_escOk_append (a := []) rfl (by simpa using hb.2)
      · simp only [Bool.and_eq_true, bne_iff_ne, ne_eq]
        exact ⟨ha, noBareQuote_of_escOk_append (a := []) rfl hb⟩
  | case3 d r ih =>
    simp only [List.cons_append]
    rw [NoBareQuote, if_pos rfl]
    exact ih ha
  | case4 c d r hc ih =>
    simp at ha
    simp only [List.cons_append]
    rw [NoBareQuote, if_neg hc]
    simp only [Bool.and_eq_true, bne_iff_ne, ne_eq]
    exact ⟨ha.1, ih ha.2⟩

theorem escOk_append_char {a : Bytes} {c : UInt8} (ha : EscOk a = true) (h1 : c ≠ c! '"') (h2 : c ≠ c! '\\') :
    EscOk (a ++ [c]) = true := by
  fun_induction EscOk a with
  | case1 => simp [EscOk, h1, h2]
  | case2 d =>
    simp at ha
    simp [EscOk, ha, h1, h2]
  | case3 d r ih => simp only [List.cons_append]; rw [EscOk, if_pos rfl]; exact ih ha
  | case4 x d r hc ih =>
    simp at ha
    simp only [List.cons_append]; rw [EscOk, if_neg hc]; simp [ha.1]; exact ih ha.2

theorem escOk_append_escape {a : Bytes} {c : UInt8} (ha : EscOk a = true) :
    EscOk (a ++ [c! '\\', c]) = true := by
  fun_induction EscOk a with
  | case1 => simp [EscOk]
  | case2 d =>
    simp at ha
    simp [EscOk, ha]
  | case3 d r ih => simp only [List.cons_append]; rw [EscOk, if_pos rfl]; exact ih ha
  | case4 x d r hc ih =>
    simp at ha
    simp only [List.cons_append]; rw [EscOk, if_neg hc]; simp [ha.1]; exact ih ha.2

/-- Two newlines do not follow each other. -/
def NoDouble : Bytes → Prop
  | [] => True
  | [_] => True
  | c :: d :: r => ¬ (c = c! '\n' ∧ d = c! '\n') ∧ NoDouble (d :: r)

theorem NoDouble.append {a b : Bytes} (ha : NoDouble a) (hb : NoDouble b)
    (h : a.getLast? ≠ some (c! '\n') ∨ b.head? ≠ some (c! '\n')) : NoDouble (a ++ b) := by
  fun_induction NoDouble a with
  | case1 => exact hb
  | case2 c =>
    cases b with
    | nil => trivial
    | cons d b =>
      refine ⟨?_, hb⟩
      rintro ⟨h1, h2⟩
      simp [h1, h2] at h
  | case3 c d r ih =>
    refine ⟨ha.1, ih ha.2 ?_⟩
    simpa [List.getLast?_cons_cons] using h

theorem noDouble_of_no_newline {a : Bytes} (h : c! '\n' ∉ a) : NoDouble a := by
  fun_induction NoDouble a with
  | case1 => trivial
  | case2 => trivial
  | case3 c d r ih =>
    simp only [List.mem_cons, not_or] at h
    exact ⟨fun hh => h.1 hh.1.symm, ih (by simpa using ⟨h.2.1, h.2.2⟩)⟩

theorem collapse_of_noDouble {a : Bytes} (h : NoDouble a) : collapse a = a := by
  fun_induction NoDouble a with
  | case1 => rfl
  | case2 => rfl
  | case3 c d r ih => rw [collapse, if_neg h.1, ih h.2]

/-- Elements as the parser produces them. -/
def ElemOk (e : Elem) : Prop :=
  match e.1 with
  | .cls => Name e.2
  | .id => Name e.2
  | .pair k => Name k ∧ c! '\n' ∉ e.2 ∧ NoBareQuote e.2 = true
  | .comment => c! '%' ∉ e.2 ∧ c! '}' ∉ e.2 ∧ NoDouble e.2

/-- Invariant: finished elements are well-formed, and so is the one under construction. -/
def Good (x : Parser × Bytes) : Prop :=
  match x.1.state with
  | .class | .identifier | .key => (∀ e ∈ x.1.attrs, ElemOk e) ∧ Name x.2
  | .valueFirst => ∃ pre k, x.1.attrs = pre ++ [(.pair k, [])] ∧ (∀ e ∈ pre, ElemOk e) ∧ Name k
  | .value => ∃ pre k, x.1.attrs = pre ++ [(.pair k, [])] ∧ (∀ e ∈ pre, ElemOk e) ∧ Name k ∧ Name x.2
  | .valueQuoted => ∃ pre k t, x.1.attrs = pre ++ [(.pair k, [])] ∧ (∀ e ∈ pre, ElemOk e) ∧ Name k ∧
      x.2 = c! '"' :: t ∧ EscOk t = true ∧ c! '\n' ∉ t
  | .valueEscape => ∃ pre k t, x.1.attrs = pre ++ [(.pair k, [])] ∧ (∀ e ∈ pre, ElemOk e) ∧ Name k ∧
      x.2 = c! '"' :: t ++ [c! '\\'] ∧ EscOk t = true ∧ c! '\n' ∉ t
  | .valueNewline => (∃ pre k v, x.1.attrs = pre ++ [(.pair k, v)]) ∧ ∀ e ∈ x.1.attrs, ElemOk e
  | .valueContinued => (∃ pre k v, x.1.attrs = pre ++ [(.pair k, v)]) ∧ (∀ e ∈ x.1.attrs, ElemOk e) ∧
      c! '\n' ∉ x.2 ∧ c! '"' ∉ x.2
  | .comment => (∃ pre v, x.1.attrs = pre ++ [(.comment, v)]) ∧ (∀ e ∈ x.1.attrs, ElemOk e) ∧
      x.2 ≠ [] ∧ c! '\n' ∉ x.2 ∧ c! '%' ∉ x.2 ∧ c! '}' ∉ x.2
  | .commentNewline => (∃ pre v, x.1.attrs = pre ++ [(.comment, v)] ∧ v.getLast? ≠ some (c! '\n')) ∧
      (∀ e ∈ x.1.attrs, ElemOk e)
  | _ => ∀ e ∈ x.1.attrs, ElemOk e

theorem name_snoc {n : Bytes} {c : UInt8} (h : Name n) (hc : isName c = true) : Name (n ++ [c]) := by
  refine ⟨by simp, fun x hx => ?_⟩
  simp at hx
  rcases hx with hx | hx
  · exact h.2 x hx
  · rw [hx]; exact hc

theorem name_single {c : UInt8} (hc : isName c = true) : Name [c] :=
  ⟨by simp, fun x hx => by simp at hx; rw [hx]; exact hc⟩

theorem isName_ne (c : UInt8) (h : isName c = true) : c ≠ c! '"' ∧ c ≠ c! '\n' ∧ c ≠ c! '\\' := by
  revert c; apply ofFin; decide +kernel

theorem name_no {n : Bytes} (h : ∀ c ∈ n, isName c = true) : c! '\n' ∉ n ∧ c! '"' ∉ n :=
  ⟨fun hm => (isName_ne _ (h _ hm)).2.1 rfl, fun hm => (isName_ne _ (h _ hm)).1 rfl⟩

/-- Well-formed elements stay so when a continuation is added. -/
theorem elemOk_extend {k v s : Bytes} (h : ElemOk (.pair k, v)) (h1 : c! '\n' ∉ s) (h2 : c! '"' ∉ s) :
    ElemOk (.pair k, extend v s) := by
  obtain ⟨hk, hn, hq⟩ := h
  rw [extend_eq]
  split
  · exact ⟨hk, hn, hq⟩
  · split
    · exact ⟨hk, h1, noBareQuote_of_escOk_append (a := []) rfl h2⟩
    · refine ⟨hk, ?_, ?_⟩
      · simp [hn, h1]
      · rw [List.append_assoc]
        apply noBareQuote_append hq
        simp [h2]

theorem elemOk_quoted {k t : Bytes} (hk : Name k) (h1 : EscOk t = true) (h2 : c! '\n' ∉ t) :
    ElemOk (.pair k, extend [] t) := by
  have : extend [] t = t := by rw [extend_eq]; cases t <;> simp
  rw [this]
  refine ⟨hk, h2, ?_⟩
  have := noBareQuote_of_escOk_append (b := []) h1 (by simp)
  simpa using this

theorem forall_snoc {P : Elem → Prop} {pre : Attributes} {e : Elem} (h : ∀ x ∈ pre, P x) (he : P e) :
    ∀ x ∈ pre ++ [e], P x := by
  intro x hx
  simp at hx
  rcases hx with hx | hx
  · exact h x hx
  · rw [hx]; exact he

/-- What a flush does to a good state. -/
theorem good_upd {p : Parser} {ct : Bytes} (h : Good (p, ct)) :
    (p.state ≠ .key → p.state ≠ .valueFirst → p.state ≠ .valueEscape → ∀ e ∈ upd p.state ct p.attrs, ElemOk e) := by
  obtain ⟨A, st⟩ := p
  intro h1 h2 h3
  cases st <;> simp only [Good] at h <;> simp only [upd]
  case start | whitespace | classFirst | identifierFirst | done | invalid => exact h
  case commentFirst => exact forall_snoc h ⟨by simp, by simp, trivial⟩
  case «class» => exact forall_snoc h.1 h.2
  case identifier => exact forall_snoc h.1 h.2
  case key => exact absurd rfl h1
  case valueFirst => exact absurd rfl h2
  case valueEscape => exact absurd rfl h3
  case valueNewline => exact h.2
  case value =>
    obtain ⟨pre, k, rfl, hpre, hk, hn⟩ := h
    rw [modLast_append]
    apply forall_snoc hpre
    have := name_no hn.2
    exact elemOk_extend (v := []) ⟨hk, by simp, rfl⟩ this.1 this.2
  case valueQuoted =>
    obtain ⟨pre, k, t, rfl, hpre, hk, rfl, he, hn⟩ := h
    rw [modLast_append]
    exact forall_snoc hpre (elemOk_quoted hk he hn)
  case valueContinued =>
    obtain ⟨⟨pre, k, v, rfl⟩, hA, hn, hq⟩ := h
    rw [modLast_append]
    exact forall_snoc (fun x hx => hA x (by simp [hx])) (elemOk_extend (hA _ (by simp)) hn hq)
  case comment =>
    obtain ⟨⟨pre, v, rfl⟩, hA, hne, hn, hp, hb⟩ := h
    rw [modLast_append, extendRaw_eq]
    have hv := hA (.comment, v) (by simp)
    refine forall_snoc (fun x hx => hA x (by simp [hx])) ⟨?_, ?_, ?_⟩
    · simp only [List.mem_append, not_or]; exact ⟨hv.1, hp⟩
    · simp only [List.mem_append, not_or]; exact ⟨hv.2.1, hb⟩
    · refine NoDouble.append hv.2.2 (noDouble_of_no_newline hn) (Or.inr ?_)
      intro hh
      cases ct with
      | nil => simp at hh
      | cons c ct => simp at hh; exact hn (by simp [hh])
  case commentNewline =>
    obtain ⟨⟨pre, v, rfl, hl⟩, hA⟩ := h
    rw [modLast_append, extendRaw_eq]
    have hv := hA (.comment, v) (by simp)
    refine forall_snoc (fun x hx => hA x (by simp [hx])) ⟨?_, ?_, ?_⟩
    · simp only [List.mem_append, not_or]; exact ⟨hv.1, by simp⟩
    · simp only [List.mem_append, not_or]; exact ⟨hv.2.1, by simp⟩
    · exact NoDouble.append hv.2.2 trivial (Or.inl hl)

theorem nextSt_to_class (st : State) (c : UInt8) :
    (nextSt st c = .class → isName c = true ∧ (st = .classFirst ∨ st = .class)) ∧
    (nextSt st c = .identifier → isName c = true ∧ (st = .identifierFirst ∨ st = .identifier)) ∧
    (nextSt st c = .key → isName c = true ∧ (st = .whitespace ∨ st = .key)) ∧
    (nextSt st c = .value → isName c = true ∧ (st = .valueFirst ∨ st = .value)) ∧
    (nextSt st c = .valueFirst → st = .key) := by
  revert c; apply ofFin; cases st <;> decide +kernel

theorem nextSt_to_value (st : State) (c : UInt8) :
    (nextSt st c = .valueQuoted → (st = .valueFirst ∧ c = c! '"') ∨
        (st = .valueQuoted ∧ c ≠ c! '"' ∧ c ≠ c! '\\' ∧ c ≠ c! '\n') ∨ (st = .valueEscape ∧ c ≠ c! '\n')) ∧
    (nextSt st c = .valueEscape → st = .valueQuoted ∧ c = c! '\\') ∧
    (nextSt st c = .valueNewline → st = .valueQuoted ∨ st = .valueEscape ∨ st = .valueNewline ∨ st = .valueContinued) ∧
    (nextSt st c = .valueContinued → (st = .valueNewline ∨ st = .valueContinued) ∧ c ≠ c! '"' ∧ c ≠ c! '\n') := by
  revert c; apply ofFin; cases st <;> decide +kernel

theorem nextSt_to_comment (st : State) (c : UInt8) :
    (nextSt st c = .comment → (st = .commentFirst ∨ st = .comment ∨ st = .commentNewline) ∧
        c ≠ c! '%' ∧ c ≠ c! '}' ∧ c ≠ c! '\n') ∧
    (nextSt st c = .commentNewline → (st = .commentFirst ∨ st = .comment ∨ st = .commentNewline)) ∧
    (nextSt st c = .whitespace ∨ nextSt st c = .done → st ≠ .key ∧ st ≠ .valueFirst ∧ st ≠ .valueEscape ∧ st ≠ .valueNewline ∨ st = .valueNewline) ∧
    (nextSt st c = .classFirst ∨ nextSt st c = .identifierFirst ∨ nextSt st c = .commentFirst → st = .whitespace) ∧
    nextSt st c ≠ .start := by
  revert c; apply ofFin; cases st <;> decide +kernel

/-- `pureStep` preserves the invariant. -/
theorem good_step {p q : Parser} {ct ct' : Bytes} {c : UInt8} (h : Good (p, ct))
    (hs : pureStep p ct c = some (q, ct')) : Good (q, ct') := by
  have hu := good_upd h
  obtain ⟨A, st⟩ := p
  unfold pureStep at hs
  simp only at hs hu
  split at hs
  · simp at hs
  rename_i hinv
  obtain ⟨c1, c2, c3, c4, c5⟩ := nextSt_to_class st c
  obtain ⟨v1, v2, v3, v4⟩ := nextSt_to_value st c
  obtain ⟨m1, m2, m3, m4, m5⟩ := nextSt_to_comment st c
  generalize hst : nextSt st c = s' at *
  cases s'
  case start => exact absurd rfl m5
  case invalid => exact absurd rfl hinv
  case whitespace =>
    by_cases hw : st = .whitespace
    · subst hw
      simp only [flushes] at hs
      simp at hs
      rw [← hs.1]; exact h
    · have hf : flushes st .whitespace = true ∨ st = .valueEscape := by
        by_cases h' : st = .valueEscape <;> simp [flushes, hw, h']
      rcases m3 (Or.inl rfl) with m | m
      · rw [if_pos (hf.resolve_right m.2.2.1)] at hs
        simp only [Option.some.injEq, Prod.mk.injEq] at hs
        rw [← hs.1]
        exact hu m.1 m.2.1 m.2.2.1
      · subst m
        rw [if_pos (by decide)] at hs
        simp only [Option.some.injEq, Prod.mk.injEq] at hs
        rw [← hs.1]
        exact hu (by simp) (by simp) (by simp)
  case done =>
    by_cases hw : st = .done
    · subst hw
      simp only [flushes] at hs
      simp at hs
      rw [← hs.1]; exact h
    · have hf : flushes st .done = true ∨ st = .valueEscape := by
        by_cases h' : st = .valueEscape <;> simp [flushes, hw, h']
      rcases m3 (Or.inr rfl) with m | m
      · rw [if_pos (hf.resolve_right m.2.2.1)] at hs
        simp only [Option.some.injEq, Prod.mk.injEq] at hs
        rw [← hs.1]
        exact hu m.1 m.2.1 m.2.2.1
      · subst m
        rw [if_pos (by decide)] at hs
        simp only [Option.some.injEq, Prod.mk.injEq] at hs
        rw [← hs.1]
        exact hu (by simp) (by simp) (by simp)
  case classFirst | identifierFirst | commentFirst =>
    have := m4 (by simp)
    subst this
    rw [if_pos (by decide)] at hs
    simp only [Option.some.injEq, Prod.mk.injEq] at hs
    rw [← hs.1]; exact h
  case «class» =>
    obtain ⟨hn, h1 | h1⟩ := c1 rfl <;> subst h1
    · rw [if_pos (by decide)] at hs
      simp only [Option.some.injEq, Prod.mk.injEq] at hs
      rw [← hs.1, ← hs.2]; exact ⟨h, name_single hn⟩
    · rw [if_neg (by decide)] at hs
      simp only [Option.some.injEq, Prod.mk.injEq] at hs
      rw [← hs.1, ← hs.2]; exact ⟨h.1, name_snoc h.2 hn⟩
  case identifier =>
    obtain ⟨hn, h1 | h1⟩ := c2 rfl <;> subst h1
    · rw [if_pos (by decide)] at hs
      simp only [Option.some.injEq, Prod.mk.injEq] at hs
      rw [← hs.1, ← hs.2]; exact ⟨h, name_single hn⟩
    · rw [if_neg (by decide)] at hs
      simp only [Option.some.injEq, Prod.mk.injEq] at hs
      rw [← hs.1, ← hs.2]; exact ⟨h.1, name_snoc h.2 hn⟩
  case key =>
    obtain ⟨hn, h1 | h1⟩ := c3 rfl <;> subst h1
    · rw [if_pos (by decide)] at hs
      simp only [Option.some.injEq, Prod.mk.injEq] at hs
      rw [← hs.1, ← hs.2]; exact ⟨h, name_single hn⟩
    · rw [if_neg (by decide)] at hs
      simp only [Option.some.injEq, Prod.mk.injEq] at hs
      rw [← hs.1, ← hs.2]; exact ⟨h.1, name_snoc h.2 hn⟩
  case valueFirst =>
    have := c5 rfl; subst this
    rw [if_pos (by decide)] at hs
    simp only [Option.some.injEq, Prod.mk.injEq] at hs
    rw [← hs.1, ← hs.2]; exact ⟨A, ct, rfl, h.1, h.2⟩
  case value =>
    obtain ⟨hn, h1 | h1⟩ := c4 rfl <;> subst h1
    · rw [if_pos (by decide)] at hs
      simp only [Option.some.injEq, Prod.mk.injEq] at hs
      obtain ⟨pre, k, hA, hpre, hk⟩ := h
      rw [← hs.1, ← hs.2]; exact ⟨pre, k, hA, hpre, hk, name_single hn⟩
    · rw [if_neg (by decide)] at hs
      simp only [Option.some.injEq, Prod.mk.injEq] at hs
      obtain ⟨pre, k, hA, hpre, hk, hx⟩ := h
      rw [← hs.1, ← hs.2]; exact ⟨pre, k, hA, hpre, hk, name_snoc hx hn⟩
  case valueQuoted =>
    rcases v1 rfl with ⟨h1, h2⟩ | ⟨h1, h2, h3, h4⟩ | ⟨h1, h2⟩ <;> subst h1
    · rw [if_pos (by decide)] at hs
      simp only [Option.some.injEq, Prod.mk.injEq] at hs
      obtain ⟨pre, k, hA, hpre, hk⟩ := h
      rw [← hs.1, ← hs.2]; exact ⟨pre, k, [], hA, hpre, hk, by rw [h2], rfl, by simp⟩
    · rw [if_neg (by decide)] at hs
      simp only [Option.some.injEq, Prod.mk.injEq] at hs
      obtain ⟨pre, k, t, hA, hpre, hk, ht, he, hn⟩ := h
      simp only at ht
      rw [← hs.1, ← hs.2]
      refine ⟨pre, k, t ++ [c], hA, hpre, hk, by rw [ht]; rfl, escOk_append_char he h2 h3, ?_⟩
      simp only [List.mem_append, List.mem_singleton, not_or]; exact ⟨hn, fun e => h4 e.symm⟩
    · rw [if_neg (by decide)] at hs
      simp only [Option.some.injEq, Prod.mk.injEq] at hs
      obtain ⟨pre, k, t, hA, hpre, hk, ht, he, hn⟩ := h
      simp only at ht
      rw [← hs.1, ← hs.2]
      refine ⟨pre, k, t ++ [c! '\\', c], hA, hpre, hk, by rw [ht]; simp, escOk_append_escape he, ?_⟩
      simp only [List.mem_append, List.mem_cons, List.not_mem_nil, or_false, not_or]
      exact ⟨hn, by decide, fun e => h2 e.symm⟩
  case valueEscape =>
    obtain ⟨h1, h2⟩ := v2 rfl; subst h1
    rw [if_neg (by decide)] at hs
    simp only [Option.some.injEq, Prod.mk.injEq] at hs
    obtain ⟨pre, k, t, hA, hpre, hk, ht, he, hn⟩ := h
    simp only at ht
    rw [← hs.1, ← hs.2]
    exact ⟨pre, k, t, hA, hpre, hk, by rw [ht, h2], he, hn⟩
  case valueNewline =>
    rcases v3 rfl with h1 | h1 | h1 | h1 <;> subst h1
    · rw [if_pos (by decide)] at hs
      simp only [Option.some.injEq, Prod.mk.injEq] at hs
      rw [← hs.1]
      refine ⟨?_, hu (by simp) (by simp) (by simp)⟩
      obtain ⟨pre, k, t, hA, -⟩ := h
      simp only at hA
      subst hA
      exact ⟨pre, k, _, by simp only [upd, modLast_append]; rfl⟩
    · rw [if_neg (by decide)] at hs
      simp only [Option.some.injEq, Prod.mk.injEq] at hs
      obtain ⟨pre, k, t, hA, hpre, hk, -⟩ := h
      simp only at hA
      rw [← hs.1]
      refine ⟨⟨pre, k, [], hA⟩, ?_⟩
      simp only [hA]
      exact forall_snoc hpre ⟨hk, by simp, rfl⟩
    · rw [if_neg (by decide)] at hs
      simp only [Option.some.injEq, Prod.mk.injEq] at hs
      rw [← hs.1]; exact h
    · rw [if_pos (by decide)] at hs
      simp only [Option.some.injEq, Prod.mk.injEq] at hs
      rw [← hs.1]
      refine ⟨?_, hu (by simp) (by simp) (by simp)⟩
      obtain ⟨⟨pre, k, v, hA⟩, -⟩ := h
      simp only at hA
      subst hA
      exact ⟨pre, k, _, by simp only [upd, modLast_append]; rfl⟩
  case valueContinued =>
    obtain ⟨h1 | h1, h2, h3⟩ := v4 rfl <;> subst h1
    · rw [if_pos (by decide)] at hs
      simp only [Option.some.injEq, Prod.mk.injEq] at hs
      rw [← hs.1, ← hs.2]
      refine ⟨h.1, h.2, ?_, ?_⟩ <;> simp only [List.mem_singleton] <;> intro e
      · exact h3 e.symm
      · exact h2 e.symm
    · rw [if_neg (by decide)] at hs
      simp only [Option.some.injEq, Prod.mk.injEq] at hs
      obtain ⟨hA, hB, hC, hD⟩ := h
      rw [← hs.1, ← hs.2]
      refine ⟨hA, hB, ?_, ?_⟩ <;> simp only [List.mem_append, List.mem_singleton, not_or]
      · exact ⟨hC, fun e => h3 e.symm⟩
      · exact ⟨hD, fun e => h2 e.symm⟩
  case comment =>
    obtain ⟨h1 | h1 | h1, h2, h3, h4⟩ := m1 rfl <;> subst h1
    · rw [if_pos (by decide)] at hs
      simp only [Option.some.injEq, Prod.mk.injEq] at hs
      rw [← hs.1, ← hs.2]
      refine ⟨⟨A, [], rfl⟩, hu (by simp) (by simp) (by simp), by simp, ?_, ?_, ?_⟩ <;>
        simp only [List.mem_singleton] <;> intro e
      · exact h4 e.symm
      · exact h2 e.symm
      · exact h3 e.symm
    · rw [if_neg (by decide)] at hs
      simp only [Option.some.injEq, Prod.mk.injEq] at hs
      obtain ⟨hA, hB, hC, hD, hE, hF⟩ := h
      rw [← hs.1, ← hs.2]
      refine ⟨hA, hB, by simp, ?_, ?_, ?_⟩ <;> simp only [List.mem_append, List.mem_singleton, not_or]
      · exact ⟨hD, fun e => h4 e.symm⟩
      · exact ⟨hE, fun e => h2 e.symm⟩
      · exact ⟨hF, fun e => h3 e.symm⟩
    · rw [if_pos (by decide)] at hs
      simp only [Option.some.injEq, Prod.mk.injEq] at hs
      rw [← hs.1, ← hs.2]
      refine ⟨?_, hu (by simp) (by simp) (by simp), by simp, ?_, ?_, ?_⟩
      · obtain ⟨⟨pre, v, hA, -⟩, -⟩ := h
        simp only at hA
        subst hA
        exact ⟨pre, _, by simp only [upd, modLast_append]; rfl⟩
      all_goals simp only [List.mem_singleton]; intro e
      · exact h4 e.symm
      · exact h2 e.symm
      · exact h3 e.symm
  case commentNewline =>
    rcases m2 rfl with h1 | h1 | h1 <;> subst h1
    · rw [if_pos (by decide)] at hs
      simp only [Option.some.injEq, Prod.mk.injEq] at hs
      rw [← hs.1]
      exact ⟨⟨A, [], rfl, by simp⟩, hu (by simp) (by simp) (by simp)⟩
    · rw [if_pos (by decide)] at hs
      simp only [Option.some.injEq, Prod.mk.injEq] at hs
      rw [← hs.1]
      refine ⟨?_, hu (by simp) (by simp) (by simp)⟩
      obtain ⟨⟨pre, v, hA⟩, -, hne, hn, -⟩ := h
      simp only at hA hne hn
      subst hA
      refine ⟨pre, _, by simp only [upd, modLast_append]; rfl, ?_⟩
      rw [extendRaw_eq, List.getLast?_append]
      obtain ⟨x, hx⟩ : ∃ x, ct.getLast? = some x := by
        cases hh : ct.getLast? with
        | none => simp at hh; exact absurd hh hne
        | some x => exact ⟨x, rfl⟩
      rw [hx]
      intro e
      simp at e
      subst e
      exact hn (List.mem_of_getLast? hx)
    · rw [if_neg (by decide)] at hs
      simp only [Option.some.injEq, Prod.mk.injEq] at hs
      rw [← hs.1]; exact h

theorem good_run {x y : Parser × Bytes} {cs : Bytes} (h : Good x) (hr : frun x cs = some y) : Good y := by
  induction cs generalizing x with
  | nil => simp at hr; rwa [← hr]
  | cons c cs ih =>
    rw [frun_cons] at hr
    cases hs : fstep x c with
    | none => simp [hs] at hr
    | some z =>
      rw [hs] at hr
      refine ih ?_ hr
      obtain ⟨p, ct⟩ := x
      unfold fstep at hs
      split at hs
      · rename_i hd
        refine good_step (p := ⟨p.attrs, .start⟩) (ct := ct) ?_ hs
        simp only at hd
        simp only [Good, hd] at h
        exact h
      · exact good_step h hs

/-- All elements that `try_from` reports are well-formed. -/
theorem parses_elemOk {s : Bytes} {a : Attributes} (hu : Utf8 s) (h : Parses s a) : ∀ e ∈ a, ElemOk e := by
  have h' : parseAttributes [] s = .ok (.ok a) := h
  rw [parseAttributes_ok_iff hu.bd hu.safe] at h'
  obtain ⟨ct, hr⟩ := h'
  exact good_run (x := (⟨[], .start⟩, [])) (by simp [Good]) hr

/-- The number of backslashes at the end. -/
def trail (v : Bytes) : Nat := (v.reverse.takeWhile (fun c => c == c! '\\')).length

theorem trail_cons (c : UInt8) (v : Bytes) :
    trail (c :: v) = if trail v = v.length ∧ c = c! '\\' then trail v + 1 else trail v := by
  have hl : (v.reverse.takeWhile (fun c => c == c! '\\')).length = v.length ↔
      v.reverse.takeWhile (fun c => c == c! '\\') = v.reverse := by
    constructor
    · intro h
      exact (List.takeWhile_prefix _).eq_of_length (by simpa using h)
    · intro h; rw [h]; simp
  unfold trail
  rw [List.reverse_cons, List.takeWhile_append]
  by_cases h : (v.reverse.takeWhile (fun c => c == c! '\\')).length = v.length
  · simp only [h, List.length_reverse, true_and, ↓reduceIte]
    by_cases hc : c = c! '\\'
    · simp [hc]
    · simp [hc]
  · simp [h]

theorem trail_le (v : Bytes) : trail v ≤ v.length := by
  unfold trail
  have := (List.takeWhile_prefix (fun c => c == c! '\\') (l := v.reverse)).length_le
  simpa using this

theorem escOk_of_noBareQuote {v : Bytes} (h : NoBareQuote v = true) (hd : ¬ DanglingBackslash v) :
    EscOk v = true := by
  have hd' : trail v % 2 ≠ 1 := hd
  clear hd
  fun_induction NoBareQuote v with
  | case1 => rfl
  | case2 c =>
    have h' := hd'
    rw [trail_cons] at h'
    simp [trail] at h'
    simp [EscOk]; simp at h; refine ⟨h, fun e => ?_⟩
    rw [if_pos e] at h'; omega
  | case3 d r ih =>
    rw [EscOk, if_pos rfl]
    apply ih h
    rw [trail_cons, trail_cons] at hd'
    have := trail_le r
    simp only [List.length_cons] at hd'
    by_cases h1 : trail r = r.length
    · by_cases h2 : d = c! '\\'
      · simp [h1, h2] at hd'; omega
      · simp [h1, h2] at hd'; omega
    · rw [if_neg (by simp [h1]; omega), if_neg (by simp [h1])] at hd'
      exact hd'
  | case4 c d r hc ih =>
    rw [EscOk, if_neg hc]
    simp at h
    simp [h.1]
    apply ih h.2
    rw [trail_cons, if_neg (by simp [hc])] at hd'
    exact hd'

/-- The item that `Debug` prints for an element. -/
def toItem (e : Elem) : Item :=
  match e.1 with
  | .cls => .cls e.2
  | .id => .id e.2
  | .pair k => .quoted k e.2
  | .comment => .comment e.2

theorem toItem_text (e : Elem) : (toItem e).text = debugElem e := by
  obtain ⟨k, v⟩ := e; cases k <;> rfl

theorem toItem_ok {e : Elem} (h : ElemOk e) (hd : ∀ k v, e = (.pair k, v) → ¬ DanglingBackslash v) :
    (toItem e).Ok ∧ (toItem e).elem = e := by
  obtain ⟨k, v⟩ := e
  cases k with
  | cls => exact ⟨h, rfl⟩
  | id => exact ⟨h, rfl⟩
  | pair k =>
    obtain ⟨h1, h2, h3⟩ := h
    have hl := splitLines_no_newline h2
    refine ⟨⟨h1, ?_⟩, ?_⟩
    · unfold QuotedOk; simp only at hl; rw [hl]
      exact ⟨escOk_of_noBareQuote h3 (hd k v rfl), by simp⟩
    · simp only [toItem, Item.elem]
      simp only at hl
      rw [hl]
      cases v <;> simp [joinNonEmpty, List.intercalate]
  | comment => exact ⟨⟨h.1, h.2.1⟩, by simp only [toItem, Item.elem]; rw [collapse_of_noDouble h.2.2]⟩

/-- The elements with the separators of the `Debug` output. -/
def debugItems : Attributes → List (Item × Bytes)
  | [] => []
  | [e] => [(toItem e, [])]
  | e :: es => (toItem e, b! " ") :: debugItems es

theorem debugItems_elem {a : Attributes} (h : ∀ e ∈ a, (toItem e).elem = e) :
    (debugItems a).map (·.1.elem) = a := by
  fun_induction debugItems a with
  | case1 => rfl
  | case2 e => simp [h e (by simp)]
  | case3 e es hne ih => simp [h e (by simp), ih (fun x hx => h x (by simp [hx]))]

theorem debugItems_sep {a : Attributes} (h : ∀ e ∈ a, (toItem e).Ok) : WellSeparated (debugItems a) := by
  fun_induction debugItems a with
  | case1 => trivial
  | case2 e => exact ⟨h e (by simp), by simp, Or.inl rfl, trivial⟩
  | case3 e es hne ih =>
    exact ⟨h e (by simp), by simp; decide, Or.inr (Or.inl (by simp)), ih (fun x hx => h x (by simp [hx]))⟩

theorem debugLoop_false (e : Elem) (es : Attributes) :
    debugLoop false (e :: es) = b! " " ++ debugLoop true (e :: es) := by simp [debugLoop]

theorem debug_eq (a : Attributes) : writeAttrs [] (debugItems a) = debug a := by
  have : (debugItems a).flatMap (fun i => i.1.text ++ i.2) = debugLoop true a := by
    fun_induction debugItems a with
    | case1 => rfl
    | case2 e => simp [debugLoop, toItem_text]
    | case3 e es hne ih =>
      cases es with
      | nil => exact absurd rfl hne
      | cons f es => 
        rw [List.flatMap_cons, ih, debugLoop.eq_2 true e, debugLoop_false, toItem_text]; simp
  simp [writeAttrs, debug, this]

/-- All values are well-formed UTF-8 as far as slicing is concerned. -/
def Vals (A : Attributes) : Prop := ∀ e ∈ A, Bd e.2 ∧ Safe e.2

theorem vals_modLast {A : Attributes} {f : Bytes → Bytes} (h : Vals A)
    (hf : ∀ v, Bd v → Safe v → Bd (f v) ∧ Safe (f v)) : Vals (modLast A f) := by
  rcases List.eq_nil_or_concat A with h0 | ⟨l, ⟨k, v⟩, rfl⟩
  · subst h0; exact h
  · rw [List.concat_eq_append] at h ⊢
    rw [modLast_append]
    have := h (k, v) (by simp)
    exact forall_snoc (fun x hx => h x (by simp [hx])) (hf v this.1 this.2)

theorem bd_append {a b : Bytes} (ha : Bd a) (hb : Bd b) : Bd (a ++ b) := by
  cases a with
  | nil => exact hb
  | cons c a => exact ha

theorem vals_extendRaw {v s : Bytes} (hs : Bd s ∧ Safe s) (h1 : Bd v) (h2 : Safe v) :
    Bd (extendRaw v s) ∧ Safe (extendRaw v s) := by
  rw [extendRaw_eq]
  exact ⟨bd_append h1 hs.1, h2.append hs.2 hs.1⟩

theorem vals_extend {v s : Bytes} (hs : Bd s ∧ Safe s) (h1 : Bd v) (h2 : Safe v) :
    Bd (extend v s) ∧ Safe (extend v s) := by
  rw [extend_eq]
  split
  · exact ⟨h1, h2⟩
  · split
    · exact hs
    · have hsp : Bd (b! " ") ∧ Safe (b! " ") := ⟨by simp [Bd]; decide, by simp [Safe]⟩
      exact ⟨bd_append (bd_append h1 hsp.1) hs.1, (h2.append hsp.2 hsp.1).append hs.2 hs.1⟩

theorem vals_upd {p : Parser} {ct cs : Bytes} (h : Inv p ct cs) (hs : Safe (ct ++ cs)) (hv : Vals p.attrs) :
    Vals (upd p.state ct p.attrs) := by
  have hct : Bd ct ∧ Safe ct := by
    have h1 := hs.take ct.length
    rw [List.take_left] at h1
    refine ⟨?_, h1⟩
    have := h.bd
    cases ct with
    | nil => simp
    | cons c ct => exact this
  obtain ⟨A, st⟩ := p
  cases st <;> simp only [upd] <;> try exact hv
  case «class» | identifier => exact forall_snoc hv hct
  case key | commentFirst => exact forall_snoc hv ⟨by simp, trivial⟩
  case value | valueContinued => exact vals_modLast hv (fun v => vals_extend hct)
  case valueQuoted =>
    obtain ⟨t, rfl, hb⟩ := h.quote (Or.inl rfl)
    refine vals_modLast hv (fun v => vals_extend ⟨?_, hct.2.tail⟩)
    cases t with
    | nil => simp
    | cons c t => exact hb
  case comment => exact vals_modLast hv (fun v => vals_extendRaw hct)
  case commentNewline => exact vals_modLast hv (fun v => vals_extendRaw ⟨by simp [Bd]; decide, by simp [Safe]⟩)

theorem vals_run {p : Parser} {ct cs : Bytes} {y : Parser × Bytes}
    (hi : Inv (if p.state = .done then ⟨p.attrs, .start⟩ else p) ct cs) (hs : Safe (ct ++ cs))
    (hv : Vals p.attrs) (hr : frun (p, ct) cs = some y) : Vals y.1.attrs := by
  induction cs generalizing p ct with
  | nil => simp at hr; rw [← hr]; exact hv
  | cons c cs ih =>
    rw [frun_cons] at hr
    unfold fstep at hr
    simp only at hr
    have hv' : Vals (if p.state = .done then (⟨p.attrs, .start⟩ : Parser) else p).attrs := by
      split <;> exact hv
    generalize (if p.state = .done then (⟨p.attrs, .start⟩ : Parser) else p) = p' at *
    cases hq : pureStep p' ct c with
    | none => simp [hq] at hr
    | some z =>
      obtain ⟨q, ct'⟩ := z
      rw [hq] at hr
      refine ih (p := q) (ct := ct') ?_ ?_ ?_ hr
      · split
        · rename_i hd; exact hi.restart hq hd
        · rename_i hd; exact hi.step hq hd
      · unfold pureStep at hq
        split at hq
        · simp at hq
        · split at hq <;> simp only [Option.some.injEq, Prod.mk.injEq] at hq <;> rw [← hq.2]
          · exact hs.of_append
          · simpa using hs
      · have hu := vals_upd hi hs hv'
        unfold pureStep at hq
        split at hq
        · simp at hq
        · split at hq <;> simp only [Option.some.injEq, Prod.mk.injEq] at hq <;> rw [← hq.1]
          · exact hu
          · exact hv'

theorem parses_vals {s : Bytes} {a : Attributes} (hu : Utf8 s) (h : Parses s a) : Vals a := by
  have h' : parseAttributes [] s = .ok (.ok a) := h
  rw [parseAttributes_ok_iff hu.bd hu.safe] at h'
  obtain ⟨ct, hr⟩ := h'
  have ht := trimEnd_bd_safe hu.bd hu.safe
  exact vals_run (p := ⟨[], .start⟩) (by simpa using Inv.init ht.1 ht.2) (by simpa using ht.2) (by simp [Vals]) hr

theorem isName_lt (c : UInt8) (h : isName c = true) : c < 128 := by
  revert c; apply ofFin; decide +kernel

theorem name_bd_safe {n : Bytes} (h : Name n) : Bd n ∧ Safe n := by
  have : ∀ n : Bytes, (∀ c ∈ n, isName c = true) → Bd n ∧ Safe n := by
    intro n
    induction n with
    | nil => simp [Safe]
    | cons c n ih =>
      intro hn
      have := ih (fun x hx => hn x (by simp [hx]))
      exact ⟨Bd_of_lt (isName_lt c (hn c (by simp))), fun _ => this.1, this.2⟩
  exact this n h.2

theorem debugElem_safe {e : Elem} (h : ElemOk e) (hv : Bd e.2 ∧ Safe e.2) : Bd (debugElem e) ∧ Safe (debugElem e) := by
  have lit : ∀ c : UInt8, c < 128 → Bd [c] ∧ Safe [c] := fun c hc => ⟨Bd_of_lt hc, fun _ => by simp, trivial⟩
  have app : ∀ a b : Bytes, Bd a ∧ Safe a → Bd b ∧ Safe b → Bd (a ++ b) ∧ Safe (a ++ b) :=
    fun a b ha hb => ⟨bd_append ha.1 hb.1, ha.2.append hb.2 hb.1⟩
  obtain ⟨k, v⟩ := e
  cases k with
  | cls => exact app _ _ (lit _ (by decide)) hv
  | id => exact app _ _ (lit _ (by decide)) hv
  | pair k =>
    refine app _ _ (app _ _ (app _ _ (name_bd_safe h.1) ?_) hv) (lit _ (by decide))
    exact app [c! '='] [c! '"'] (lit _ (by decide)) (lit _ (by decide))
  | comment => exact app _ _ (app _ _ (lit _ (by decide)) hv) (lit _ (by decide))

theorem debug_safe {a : Attributes} (h : ∀ e ∈ a, ElemOk e) (hv : Vals a) : Bd (debug a) ∧ Safe (debug a) := by
  have lit : ∀ c : UInt8, c < 128 → Bd [c] ∧ Safe [c] := fun c hc => ⟨Bd_of_lt hc, fun _ => by simp, trivial⟩
  have app : ∀ a b : Bytes, Bd a ∧ Safe a → Bd b ∧ Safe b → Bd (a ++ b) ∧ Safe (a ++ b) :=
    fun a b ha hb => ⟨bd_append ha.1 hb.1, ha.2.append hb.2 hb.1⟩
  have key : ∀ first, Bd (debugLoop first a) ∧ Safe (debugLoop first a) := by
    induction a with
    | nil => intro _; exact ⟨by simp [debugLoop], trivial⟩
    | cons e es ih =>
      intro first
      refine app _ _ (app _ _ ?_ (debugElem_safe (h e (by simp)) (hv e (by simp))))
        (ih (fun x hx => h x (by simp [hx])) (fun x hx => hv x (by simp [hx])) false)
      split
      · exact ⟨by simp, trivial⟩
      · exact lit _ (by decide)
  exact app _ _ (app _ _ (lit _ (by decide)) (key true)) (lit _ (by decide))

/-- C09 in full: printing accepted attributes with `Debug` and parsing the text gives them back. -/
def C09_full : Prop := ∀ s a, Utf8 s → Parses s a → Parses (debug a) a

/-- C09 does not hold: a value over several lines may end with a single backslash, which is printed
before the closing quote. -/
theorem C09_debug_roundtrip_fails : ¬ C09_full := by
  intro h
  have h1 := h (b! "{k=\"a\nb\\\"}") [(.pair (b! "k"), b! "a b\\")] (utf8_ascii (by decide +kernel))
    (by unfold Parses; decide +kernel)
  revert h1
  unfold Parses
  decide +kernel

/-- C09 for all attributes in which no value ends with a single (unescaped) backslash. -/
theorem C09_debug_roundtrip_partial (s : Bytes) (a : Attributes) (hu : Utf8 s) (h : Parses s a)
    (hd : ∀ k v, (AttrKind.pair k, v) ∈ a → ¬ DanglingBackslash v) :
    Parses (debug a) a := by
  have hok := parses_elemOk hu h
  have hi : ∀ e ∈ a, (toItem e).Ok ∧ (toItem e).elem = e :=
    fun e he => toItem_ok (hok e he) (fun k v hev => hd k v (hev ▸ he))
  have := parses_writeAttrs [] (by simp) (debugItems a) (debugItems_sep (fun e he => (hi e he).1))
    (by rw [debug_eq]; exact debug_safe hok (parses_vals hu h))
  rw [debug_eq, debugItems_elem (fun e he => (hi e he).2)] at this
  exact this

/-- Not vacuous: elements of every kind, several lines, escapes. -/
example : ∃ a, Parses (b! "{.a #b\nk=\"x\\\"\n\ny\\\\\" %c\n\nd%}{l=v}") a ∧ a.length = 5 ∧
    (∀ k v, (AttrKind.pair k, v) ∈ a → ¬ DanglingBackslash v) ∧
    debug a = b! "{.a #b k=\"x\\\" y\\\\\" %c\nd% l=\"v\"}" := by
  refine ⟨[(.cls, b! "a"), (.id, b! "b"), (.pair (b! "k"), b! "x\\\" y\\\\"), (.comment, b! "c\nd"), (.pair (b! "l"), b! "v")],
    by unfold Parses; decide +kernel, rfl, ?_, by decide +kernel⟩
  intro k v h
  simp at h
  rcases h with ⟨-, rfl⟩ | ⟨-, rfl⟩ <;> · unfold DanglingBackslash; decide +kernel

end Jotdown.Attr
