import Verif.Proofs.AttrRun
import Verif.Proofs.AttrJoin
/-! # Helper lemmas: attribute elements -/
namespace Jotdown.Attr
open Jotdown

/-- `cs` leads from `x` to the parser `p` (with some pending text). -/
def Reach (x : Parser × Bytes) (cs : Bytes) (p : Parser) : Prop := ∃ ct, frun x cs = some (p, ct)

theorem Reach.append {x : Parser × Bytes} {a b : Bytes} {p q : Parser} (h : Reach x a p)
    (h' : ∀ ct, Reach (p, ct) b q) : Reach x (a ++ b) q := by
  obtain ⟨ct, h⟩ := h
  obtain ⟨ct', h'⟩ := h' ct
  exact ⟨ct', by rw [frun_append, h]; exact h'⟩

theorem frun_append_of {x y : Parser × Bytes} {a b : Bytes} (h : frun x a = some y) :
    frun x (a ++ b) = frun y b := by rw [frun_append, h]; rfl

theorem fstep_flush {A : Attributes} {st st' : State} {ct : Bytes} {c : UInt8}
    (hd : st ≠ .done) (hn : nextSt st c = st') (hi : st' ≠ .invalid) (hf : flushes st st' = true) :
    fstep (⟨A, st⟩, ct) c = some (⟨upd st ct A, st'⟩, [c]) := by
  subst hn
  simp only [fstep, hd, if_false]
  unfold pureStep
  simp only
  rw [if_neg hi, if_pos hf]

theorem fstep_noflush {A : Attributes} {st st' : State} {ct : Bytes} {c : UInt8}
    (hd : st ≠ .done) (hn : nextSt st c = st') (hi : st' ≠ .invalid) (hf : flushes st st' = false) :
    fstep (⟨A, st⟩, ct) c = some (⟨A, st'⟩, ct ++ [c]) := by
  subst hn
  simp only [fstep, hd, if_false]
  unfold pureStep
  simp only
  rw [if_neg hi, if_neg (by simp [hf])]

theorem frun_self {A : Attributes} {st : State} {ct n : Bytes} (hd : st ≠ .done) (hi : st ≠ .invalid)
    (h : ∀ c ∈ n, nextSt st c = st) : frun (⟨A, st⟩, ct) n = some (⟨A, st⟩, ct ++ n) := by
  induction n generalizing ct with
  | nil => simp
  | cons c n ih =>
    rw [frun_cons, fstep_noflush hd (h c (by simp)) hi (by simp [flushes]), Option.bind_some,
      ih (fun c hc => h c (by simp [hc]))]
    simp

theorem nextSt_name (c : UInt8) (h : isName c = true) :
    nextSt .class c = .class ∧ nextSt .identifier c = .identifier ∧ nextSt .key c = .key ∧
    nextSt .value c = .value ∧ nextSt .classFirst c = .class ∧ nextSt .identifierFirst c = .identifier ∧
    nextSt .valueFirst c = .value ∧ nextSt .whitespace c = .key := by
  revert c; apply ofFin; decide +kernel

theorem nextSt_ws (c : UInt8) (h : isWs c = true) :
    nextSt .class c = .whitespace ∧ nextSt .identifier c = .whitespace ∧
    nextSt .value c = .whitespace ∧ nextSt .whitespace c = .whitespace := by
  revert c; apply ofFin; decide +kernel

/-- A separator: whitespace or the end of the set. -/
def endState (d : UInt8) : State := if d = c! '}' then .done else .whitespace

theorem nextSt_sep (d : UInt8) (h : isWs d = true ∨ d = c! '}') :
    nextSt .class d = endState d ∧ nextSt .identifier d = endState d ∧
    nextSt .value d = endState d ∧ nextSt .whitespace d = endState d ∧ endState d ≠ .invalid := by
  revert d; apply ofFin; decide +kernel

theorem reach_ws {A : Attributes} {ct w : Bytes} (h : ∀ c ∈ w, isWs c = true) :
    Reach (⟨A, .whitespace⟩, ct) w ⟨A, .whitespace⟩ :=
  ⟨_, frun_self (by simp) (by simp) (fun c hc => (nextSt_ws c (h c hc)).2.2.2)⟩

theorem flushes_endState (st : State) (d : UInt8) (h : st = .class ∨ st = .identifier ∨ st = .value) :
    flushes st (endState d) = true := by
  unfold endState; split <;> rcases h with h | h | h <;> subst h <;> decide

theorem upd_whitespace (ct : Bytes) (A : Attributes) : upd .whitespace ct A = A := rfl

/-- An open element followed by a separator. -/
theorem reach_open {A : Attributes} {ct : Bytes} {i : Item} {d : UInt8} (hi : i.Ok)
    (hc : i.closed = false) (hd : isWs d = true ∨ d = c! '}') :
    Reach (⟨A, .whitespace⟩, ct) (i.text ++ [d]) ⟨A ++ [i.elem], endState d⟩ := by
  have hs := nextSt_sep d hd
  cases i with
  | quoted => simp [Item.closed] at hc
  | comment => simp [Item.closed] at hc
  | cls n =>
    obtain ⟨hne, hn⟩ := hi
    cases n with
    | nil => exact absurd rfl hne
    | cons c n =>
      have hc := nextSt_name c (hn c (by simp))
      refine ⟨[d], ?_⟩
      simp only [Item.text, List.cons_append, List.nil_append, frun_cons]
      rw [fstep_flush (st := .whitespace) (st' := .classFirst) (by simp) (by decide) (by simp) (by decide),
        Option.bind_some, fstep_flush (st := .classFirst) (st' := .class) (by simp) hc.2.2.2.2.1 (by simp) (by decide),
        Option.bind_some, frun_append, frun_self (by simp) (by simp) (fun x hx => (nextSt_name x (hn x (by simp [hx]))).1),
        Option.bind_some, frun_cons,
        fstep_flush (by simp) hs.1 hs.2.2.2.2 (flushes_endState _ _ (by simp))]
      simp [upd, Item.elem]
  | id n =>
    obtain ⟨hne, hn⟩ := hi
    cases n with
    | nil => exact absurd rfl hne
    | cons c n =>
      have hc := nextSt_name c (hn c (by simp))
      refine ⟨[d], ?_⟩
      simp only [Item.text, List.cons_append, List.nil_append, frun_cons]
      rw [fstep_flush (st := .whitespace) (st' := .identifierFirst) (by simp) (by decide) (by simp) (by decide),
        Option.bind_some, fstep_flush (st := .identifierFirst) (st' := .identifier) (by simp) hc.2.2.2.2.2.1 (by simp) (by decide),
        Option.bind_some, frun_append, frun_self (by simp) (by simp) (fun x hx => (nextSt_name x (hn x (by simp [hx]))).2.1),
        Option.bind_some, frun_cons,
        fstep_flush (by simp) hs.2.1 hs.2.2.2.2 (flushes_endState _ _ (by simp))]
      simp [upd, Item.elem]
  | bare k v =>
    obtain ⟨⟨hne, hn⟩, hne', hn'⟩ := hi
    cases k with
    | nil => exact absurd rfl hne
    | cons c n =>
    cases v with
    | nil => exact absurd rfl hne'
    | cons e v =>
      have hc := nextSt_name c (hn c (by simp))
      have he := nextSt_name e (hn' e (by simp))
      refine ⟨[d], ?_⟩
      simp only [Item.text, List.cons_append, List.append_assoc, List.nil_append, frun_cons]
      rw [fstep_flush (st := .whitespace) (st' := .key) (by simp) hc.2.2.2.2.2.2.2 (by simp) (by decide),
        Option.bind_some, frun_append, frun_self (by simp) (by simp) (fun x hx => (nextSt_name x (hn x (by simp [hx]))).2.2.1),
        Option.bind_some, frun_cons,
        fstep_flush (st := .key) (st' := .valueFirst) (by simp) (by decide) (by simp) (by decide),
        Option.bind_some, frun_cons,
        fstep_flush (st := .valueFirst) (st' := .value) (by simp) he.2.2.2.2.2.2.1 (by simp) (by decide),
        Option.bind_some, frun_append,
        frun_self (by simp) (by simp) (fun x hx => (nextSt_name x (hn' x (by simp [hx]))).2.2.2.1),
        Option.bind_some, frun_cons,
        fstep_flush (by simp) hs.2.2.1 hs.2.2.2.2 (flushes_endState _ _ (by simp))]
      simp [upd, Item.elem, modLast_append, extend, extendRaw]

theorem nextSt_quoted_char (c : UInt8) (h1 : c ≠ c! '"') (h2 : c ≠ c! '\n') (h3 : c ≠ c! '\\') :
    nextSt .valueQuoted c = .valueQuoted := by
  simp [nextSt, State.step, h1, h2, h3]

theorem nextSt_escape_char (c : UInt8) (h2 : c ≠ c! '\n') : nextSt .valueEscape c = .valueQuoted := by
  simp [nextSt, State.step, h2]

theorem frun_escOk {A : Attributes} {ct t : Bytes} (h : EscOk t = true) (hn : c! '\n' ∉ t) :
    frun (⟨A, .valueQuoted⟩, ct) t = some (⟨A, .valueQuoted⟩, ct ++ t) := by
  fun_induction EscOk t generalizing ct with
  | case1 => simp
  | case2 c =>
    simp at h hn
    rw [frun_cons, fstep_noflush (st' := .valueQuoted) (by simp) (nextSt_quoted_char c h.1 (fun e => hn e.symm) h.2) (by simp) (by decide)]
    rfl
  | case3 d r ih =>
    simp at hn
    rw [frun_cons, fstep_noflush (st' := .valueEscape) (by simp) (by decide) (by simp) (by decide), Option.bind_some,
      frun_cons, fstep_noflush (st' := .valueQuoted) (by simp) (nextSt_escape_char d (fun e => hn.1 e.symm)) (by simp) (by decide),
      Option.bind_some, ih h (by simpa using hn.2)]
    simp
  | case4 c d r hc ih =>
    simp at h hn
    rw [frun_cons, fstep_noflush (st' := .valueQuoted) (by simp) (nextSt_quoted_char c h.1 (fun e => hn.1 e.symm) hc) (by simp) (by decide),
      Option.bind_some, ih h.2 (by simpa using hn.2)]
    simp

theorem nextSt_cont_char (c : UInt8) (h1 : c ≠ c! '"') (h2 : c ≠ c! '\n') :
    nextSt .valueContinued c = .valueContinued ∧ nextSt .valueNewline c = .valueContinued := by
  simp [nextSt, State.step, h1, h2]

theorem joinNonEmpty_extend (v x : Bytes) (l : List Bytes) :
    joinNonEmpty (extend v x :: l) = joinNonEmpty (v :: x :: l) := by
  rw [← foldl_extend, ← foldl_extend]; rfl

theorem splitLines_ne_nil (t : Bytes) : splitLines t ≠ [] := by
  cases t with
  | nil => simp [splitLines]
  | cons c r =>
    unfold splitLines
    split
    · simp
    · split <;> simp

/-- Continuation lines and the closing quote. -/
theorem reach_cont {pre : Attributes} {k : AttrKind} (v : Bytes) (ct r : Bytes) (hq : c! '"' ∉ r) :
    Reach (⟨pre ++ [(k, v)], .valueNewline⟩, ct) (r ++ b! "\"")
      ⟨pre ++ [(k, joinNonEmpty (v :: splitLines r))], .whitespace⟩ ∧
    Reach (⟨pre ++ [(k, v)], .valueContinued⟩, ct) (r ++ b! "\"")
      ⟨pre ++ [(k, joinNonEmpty (v :: (ct ++ (splitLines r).head (splitLines_ne_nil r)) :: (splitLines r).tail))], .whitespace⟩ := by
  have hjv : ∀ v : Bytes, joinNonEmpty [v] = v := by
    intro v; rw [joinNonEmpty_cons]; cases v <;> simp [joinNonEmpty_nil]
  induction r generalizing v ct with
  | nil =>
    constructor
    · refine ⟨b! "\"", ?_⟩
      simp only [List.nil_append, frun_cons]
      rw [fstep_flush (st := .valueNewline) (st' := .whitespace) (by simp) (by decide) (by simp) (by decide)]
      simp only [upd, splitLines, Option.bind_some, frun_nil]
      rw [← joinNonEmpty_extend, hjv]; simp [extend]
    · refine ⟨b! "\"", ?_⟩
      simp only [List.nil_append, frun_cons]
      rw [fstep_flush (st := .valueContinued) (st' := .whitespace) (by simp) (by decide) (by simp) (by decide)]
      simp only [upd, Option.bind_some, frun_nil, modLast_append, splitLines, List.head_cons, List.tail_cons, List.append_nil]
      rw [← joinNonEmpty_extend, hjv]
  | cons c r ih =>
    have hq' : c! '"' ∉ r := fun h => hq (List.mem_cons_of_mem _ h)
    have hc : c ≠ c! '"' := fun h => hq (by simp [h])
    by_cases hn : c = c! '\n'
    · subst hn
      constructor
      · obtain ⟨ct', h⟩ := (ih v (ct ++ [c! '\n']) hq').1
        refine ⟨ct', ?_⟩
        rw [List.cons_append, frun_cons, fstep_noflush (st' := .valueNewline) (by simp) (by decide) (by simp) (by decide), Option.bind_some, h]
        simp only [splitLines, if_true]
        rw [← joinNonEmpty_extend v []]; simp [extend]
      · obtain ⟨ct', h⟩ := (ih (extend v ct) [c! '\n'] hq').1
        refine ⟨ct', ?_⟩
        rw [List.cons_append, frun_cons, fstep_flush (st' := .valueNewline) (by simp) (by decide) (by simp) (by decide), Option.bind_some]
        simp only [upd, modLast_append]
        rw [h]
        simp only [splitLines, if_true, List.head_cons, List.append_nil, List.tail_cons]
        rw [joinNonEmpty_extend]
    · have hs := nextSt_cont_char c hc hn
      have hsplit : ∃ l ls, splitLines r = l :: ls ∧ splitLines (c :: r) = (c :: l) :: ls := by
        cases hr : splitLines r with
        | nil => exact absurd hr (splitLines_ne_nil r)
        | cons l ls => exact ⟨l, ls, rfl, by simp [splitLines, hn, hr]⟩
      obtain ⟨l, ls, h1, h2⟩ := hsplit
      constructor
      · obtain ⟨ct', h⟩ := (ih v [c] hq').2
        refine ⟨ct', ?_⟩
        rw [List.cons_append, frun_cons, fstep_flush (st' := .valueContinued) (by simp) hs.2 (by simp) (by decide), Option.bind_some]
        simp only [upd]
        rw [h]
        simp [h1, h2]
      · obtain ⟨ct', h⟩ := (ih v (ct ++ [c]) hq').2
        refine ⟨ct', ?_⟩
        rw [List.cons_append, frun_cons, fstep_noflush (st' := .valueContinued) (by simp) hs.1 (by simp) (by decide), Option.bind_some, h]
        simp [h1, h2]

theorem splitLines_no_newline {t : Bytes} (h : c! '\n' ∉ t) : splitLines t = [t] := by
  induction t with
  | nil => rfl
  | cons c t ih =>
    simp at h
    rw [splitLines, if_neg (fun e => h.1 e.symm), ih (by simpa using h.2)]

theorem splitLines_append {a b : Bytes} (h : c! '\n' ∉ a) : splitLines (a ++ c! '\n' :: b) = a :: splitLines b := by
  induction a with
  | nil => simp [splitLines]
  | cons c a ih =>
    simp at h
    rw [List.cons_append, splitLines, if_neg (fun e => h.1 e.symm), ih (by simpa using h.2)]

/-- Quoted text is a first line, and possibly a newline and further lines. -/
theorem quoted_cases {t : Bytes} (h : QuotedOk t) :
    (EscOk t = true ∧ c! '\n' ∉ t) ∨
    ∃ a b, t = a ++ c! '\n' :: b ∧ c! '\n' ∉ a ∧ EscOk a = true ∧ c! '"' ∉ b := by
  by_cases hn : c! '\n' ∈ t
  · obtain ⟨a, b, rfl, ha⟩ := List.append_of_mem hn |> fun ⟨_, _, _⟩ => 
      (List.eq_append_cons_of_mem hn)
    right
    refine ⟨a, b, rfl, ha, ?_⟩
    unfold QuotedOk at h
    rw [splitLines_append ha] at h
    refine ⟨h.1, ?_⟩
    have h2 := h.2
    clear h hn ha
    induction b with
    | nil => simp
    | cons c b ih =>
      intro hm
      by_cases hc : c = c! '\n'
      · subst hc
        simp only [splitLines, if_true] at h2
        exact ih (fun m hm => h2 m (by simp [hm])) (by simpa using hm)
      · cases hr : splitLines b with
        | nil => exact absurd hr (splitLines_ne_nil b)
        | cons l ls =>
          rw [splitLines, if_neg hc, hr] at h2
          simp only at h2
          have h3 := h2 (c :: l) (by simp)
          simp only [List.mem_cons, not_or] at h3
          rcases List.mem_cons.mp hm with hm | hm
          · exact h3.1 hm
          · refine ih (fun m hm' => ?_) hm
            rw [hr] at hm'
            rcases List.mem_cons.mp hm' with h | h
            · rw [h]; exact h3.2
            · exact h2 m (by simp [h])
  · left
    unfold QuotedOk at h
    rw [splitLines_no_newline hn] at h
    exact ⟨h.1, hn⟩

theorem nextSt_comment_char (c : UInt8) (h1 : c ≠ c! '%') (h2 : c ≠ c! '}') :
    nextSt .commentFirst c = (if c = c! '\n' then .commentNewline else .comment) ∧
    nextSt .comment c = (if c = c! '\n' then .commentNewline else .comment) ∧
    nextSt .commentNewline c = (if c = c! '\n' then .commentNewline else .comment) := by
  simp [nextSt, State.step, h1, h2]

theorem extendRaw_eq (a b : Bytes) : extendRaw a b = a ++ b := by
  unfold extendRaw; cases a <;> simp

theorem collapse_newline (t : Bytes) : collapse (c! '\n' :: c! '\n' :: t) = collapse (c! '\n' :: t) := by
  rw [collapse]; simp

theorem collapse_cons {c : UInt8} (t : Bytes) (h : c ≠ c! '\n') : collapse (c :: t) = c :: collapse t := by
  cases t with
  | nil => simp [collapse]
  | cons d t => rw [collapse, if_neg (by simp [h])]

theorem collapse_newline_cons {c : UInt8} (t : Bytes) (h : c ≠ c! '\n') :
    collapse (c! '\n' :: c :: t) = c! '\n' :: collapse (c :: t) := by
  rw [collapse, if_neg (by simp [h])]

/-- Text of a comment. -/
theorem reach_comment {pre : Attributes} (v ct r : Bytes) (h1 : c! '%' ∉ r) (h2 : c! '}' ∉ r) :
    Reach (⟨pre ++ [(.comment, v)], .comment⟩, ct) (r ++ b! "%")
      ⟨pre ++ [(.comment, v ++ ct ++ collapse r)], .whitespace⟩ ∧
    Reach (⟨pre ++ [(.comment, v)], .commentNewline⟩, ct) (r ++ b! "%")
      ⟨pre ++ [(.comment, v ++ collapse (c! '\n' :: r))], .whitespace⟩ := by
  induction r generalizing v ct with
  | nil =>
    constructor
    · refine ⟨b! "%", ?_⟩
      simp only [List.nil_append, frun_cons]
      rw [fstep_flush (st' := .whitespace) (by simp) (by decide) (by simp) (by decide)]
      simp [upd, modLast_append, extendRaw_eq, collapse]
    · refine ⟨b! "%", ?_⟩
      simp only [List.nil_append, frun_cons]
      rw [fstep_flush (st' := .whitespace) (by simp) (by decide) (by simp) (by decide)]
      simp [upd, modLast_append, extendRaw_eq, collapse]
  | cons c r ih =>
    have h1' : c! '%' ∉ r := fun h => h1 (List.mem_cons_of_mem _ h)
    have h2' : c! '}' ∉ r := fun h => h2 (List.mem_cons_of_mem _ h)
    have hs := nextSt_comment_char c (fun h => h1 (by simp [h])) (fun h => h2 (by simp [h]))
    by_cases hn : c = c! '\n'
    · subst hn
      simp only [if_true] at hs
      constructor
      · obtain ⟨ct', h⟩ := (ih (v ++ ct) [c! '\n'] h1' h2').2
        refine ⟨ct', ?_⟩
        rw [List.cons_append, frun_cons, fstep_flush (by simp) hs.2.1 (by simp) (by decide), Option.bind_some]
        simp only [upd, modLast_append, extendRaw_eq]
        rw [h]
      · obtain ⟨ct', h⟩ := (ih v (ct ++ [c! '\n']) h1' h2').2
        refine ⟨ct', ?_⟩
        rw [List.cons_append, frun_cons, fstep_noflush (by simp) hs.2.2 (by simp) (by decide), Option.bind_some, h,
          collapse_newline]
    · simp only [hn, if_false] at hs
      constructor
      · obtain ⟨ct', h⟩ := (ih v (ct ++ [c]) h1' h2').1
        refine ⟨ct', ?_⟩
        rw [List.cons_append, frun_cons, fstep_noflush (by simp) hs.2.1 (by simp) (by decide), Option.bind_some, h,
          collapse_cons _ hn]
        simp
      · obtain ⟨ct', h⟩ := (ih (v ++ [c! '\n']) [c] h1' h2').1
        refine ⟨ct', ?_⟩
        rw [List.cons_append, frun_cons, fstep_flush (by simp) hs.2.2 (by simp) (by decide), Option.bind_some]
        simp only [upd, modLast_append, extendRaw_eq]
        rw [h, collapse_newline_cons _ hn, collapse_cons _ hn]
        simp

/-- A closed element. -/
theorem reach_closed {A : Attributes} {ct : Bytes} {i : Item} (hi : i.Ok) (hc : i.closed = true) :
    Reach (⟨A, .whitespace⟩, ct) i.text ⟨A ++ [i.elem], .whitespace⟩ := by
  have hjv : ∀ v : Bytes, joinNonEmpty [v] = v := by
    intro v; rw [joinNonEmpty_cons]; cases v <;> simp [joinNonEmpty_nil]
  cases i with
  | cls => simp [Item.closed] at hc
  | id => simp [Item.closed] at hc
  | bare => simp [Item.closed] at hc
  | quoted k t =>
    obtain ⟨⟨hne, hn⟩, hq⟩ := hi
    cases k with
    | nil => exact absurd rfl hne
    | cons c n =>
      have hc := nextSt_name c (hn c (by simp))
      simp only [Item.text, Item.elem, List.cons_append, List.append_assoc, List.nil_append]
      unfold Reach
      rw [frun_cons, fstep_flush (st := .whitespace) (st' := .key) (by simp) hc.2.2.2.2.2.2.2 (by simp) (by decide),
        Option.bind_some, frun_append, frun_self (by simp) (by simp) (fun x hx => (nextSt_name x (hn x (by simp [hx]))).2.2.1),
        Option.bind_some, frun_cons,
        fstep_flush (st := .key) (st' := .valueFirst) (by simp) (by decide) (by simp) (by decide),
        Option.bind_some, frun_cons,
        fstep_flush (st := .valueFirst) (st' := .valueQuoted) (by simp) (by decide) (by simp) (by decide), Option.bind_some]
      simp only [upd, List.cons_append, List.nil_append]
      rcases quoted_cases hq with ⟨h1, h2⟩ | ⟨a, b, rfl, h1, h2, h3⟩
      · refine ⟨b! "\"", ?_⟩
        rw [frun_append, frun_escOk h1 h2, Option.bind_some, frun_cons,
          fstep_flush (st := .valueQuoted) (st' := .whitespace) (by simp) (by decide) (by simp) (by decide), Option.bind_some]
        simp only [upd, modLast_append, splitLines_no_newline h2, hjv]
        simp [extend_eq]
      · rw [List.append_assoc, List.cons_append, frun_append, frun_escOk h2 h1, Option.bind_some, frun_cons,
          fstep_flush (st := .valueQuoted) (st' := .valueNewline) (by simp) (by decide) (by simp) (by decide), Option.bind_some]
        simp only [upd, modLast_append, List.cons_append, List.nil_append, List.drop_succ_cons, List.drop_zero]
        have := (reach_cont (pre := A) (k := .pair (c :: n)) (extend [] a) [c! '\n'] b h3).1
        rw [splitLines_append h1]
        have he : joinNonEmpty (extend [] a :: splitLines b) = joinNonEmpty (a :: splitLines b) := by
          cases a <;> simp [extend_eq]
        rw [he] at this
        exact this
  | comment t =>
    obtain ⟨h1, h2⟩ := hi
    simp only [Item.text, Item.elem, List.cons_append, List.append_assoc, List.nil_append]
    unfold Reach
    rw [frun_cons, fstep_flush (st := .whitespace) (st' := .commentFirst) (by simp) (by decide) (by simp) (by decide), Option.bind_some]
    simp only [upd]
    cases t with
    | nil =>
      refine ⟨b! "%", ?_⟩
      simp only [List.nil_append, frun_cons]
      rw [fstep_flush (st := .commentFirst) (st' := .whitespace) (by simp) (by decide) (by simp) (by decide)]
      simp [upd, collapse]
    | cons c t =>
      have h1' : c! '%' ∉ t := fun h => h1 (List.mem_cons_of_mem _ h)
      have h2' : c! '}' ∉ t := fun h => h2 (List.mem_cons_of_mem _ h)
      have hs := nextSt_comment_char c (fun h => h1 (by simp [h])) (fun h => h2 (by simp [h]))
      by_cases hn : c = c! '\n'
      · subst hn
        simp only [if_true] at hs
        rw [List.cons_append, frun_cons, fstep_flush (by simp) hs.1 (by simp) (by decide), Option.bind_some]
        simp only [upd]
        have := (reach_comment (pre := A) [] [c! '\n'] t h1' h2').2
        simpa [Reach] using this
      · simp only [hn, if_false] at hs
        rw [List.cons_append, frun_cons, fstep_flush (by simp) hs.1 (by simp) (by decide), Option.bind_some]
        simp only [upd]
        have := (reach_comment (pre := A) [] [c] t h1' h2').1
        rw [collapse_cons _ hn]
        simpa [Reach] using this

theorem reach_end {A : Attributes} {ct : Bytes} : Reach (⟨A, .whitespace⟩, ct) (b! "}") ⟨A, .done⟩ :=
  ⟨_, by rw [frun_cons, fstep_flush (st := .whitespace) (st' := .done) (by simp) (by decide) (by simp) (by decide)]; rfl⟩

/-- Separated elements up to the closing brace. -/
theorem reach_items {A : Attributes} {ct : Bytes} (items : List (Item × Bytes)) (h : WellSeparated items) :
    Reach (⟨A, .whitespace⟩, ct) (items.flatMap (fun i => i.1.text ++ i.2) ++ b! "}")
      ⟨A ++ items.map (·.1.elem), .done⟩ := by
  induction items generalizing A ct with
  | nil => simpa using reach_end
  | cons iw rest ih =>
    obtain ⟨i, w⟩ := iw
    obtain ⟨hi, hw, hsep, hrest⟩ := h
    rw [List.flatMap_cons, List.map_cons, List.append_cons A]
    simp only [List.append_assoc _ _ (b! "}")]
    simp only [List.append_assoc i.text]
    cases hc : i.closed with
    | true =>
      refine (reach_closed hi hc).append (fun ct1 => ?_)
      refine (reach_ws hw).append (fun ct2 => ?_)
      exact ih hrest
    | false =>
      cases w with
      | cons d w =>
        have h1 : i.text ++ (d :: w ++ (rest.flatMap (fun i => i.1.text ++ i.2) ++ b! "}")) =
            (i.text ++ [d]) ++ (w ++ (rest.flatMap (fun i => i.1.text ++ i.2) ++ b! "}")) := by simp
        rw [h1]
        have hd := hw d (by simp)
        have hes : endState d = .whitespace := by
          unfold endState
          rw [if_neg]; intro h; rw [h] at hd; revert hd; decide
        refine (reach_open hi hc (Or.inl hd)).append (fun ct1 => ?_)
        rw [hes]
        refine (reach_ws (fun c hc => hw c (by simp [hc]))).append (fun ct2 => ?_)
        exact ih hrest
      | nil =>
        rcases hsep with h0 | h0 | h0
        · subst h0
          simpa [endState] using reach_open (A := A) (ct := ct) hi hc (Or.inr rfl)
        · exact absurd rfl h0
        · rw [hc] at h0; exact absurd h0 (by decide)

end Jotdown.Attr
