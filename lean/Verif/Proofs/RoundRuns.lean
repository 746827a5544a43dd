import Verif.Proofs.RoundPad
/-! # Round trip: how far blocks extend -/
namespace Jotdown.Round
open Jotdown Jotdown.Notation

/-- The lines continue a block of kind `k`, which becomes `k'`. -/
def Runs : Block.Kind → List Bytes → Block.Kind → Prop
  | k, [], k' => k = k'
  | k, l :: L, k' => ∃ k1, (∀ r, Bd l → Safe l → k.continues l = .ok r → r = (true, k1)) ∧ Runs k1 L k'

/-- The block ends before the lines. -/
def Stops (k : Block.Kind) : List Bytes → Prop
  | [] => True
  | l :: _ => ∀ r, Bd l → Safe l → k.continues l = .ok r → r = (false, k)

/-- The block ends before the lines, and becomes `k2`. -/
def StopsAs (k : Block.Kind) : List Bytes → Block.Kind → Prop
  | [], k2 => k2 = k
  | l :: _, k2 => ∀ r, Bd l → Safe l → k.continues l = .ok r → r = (false, k2)

theorem Stops.as {k : Block.Kind} {R : List Bytes} (h : Stops k R) : StopsAs k R k := by
  cases R with
  | nil => rfl
  | cons l R => exact h

theorem Runs.append {k k1 k2 : Block.Kind} {A B : List Bytes} (h : Runs k A k1) (h2 : Runs k1 B k2) : Runs k (A ++ B) k2 := by
  induction A generalizing k with
  | nil => cases h; exact h2
  | cons l A ih => obtain ⟨k', g1, g2⟩ := h; exact ⟨k', g1, ih g2⟩

theorem Runs.all {k : Block.Kind} {A : List Bytes} (h : ∀ l ∈ A, ∀ r, Bd l → Safe l → k.continues l = .ok r → r = (true, k)) : Runs k A k := by
  induction A with
  | nil => rfl
  | cons l A ih => exact ⟨k, h l (by simp), ih (fun m hm => h m (List.mem_cons_of_mem _ hm))⟩

theorem measure_runs {src : Bytes} (hs : Safe src) {sps : List Span} (hok : ∀ l ∈ sps, Block.SpanOk src l) {k k' k3 : Block.Kind} {A R : List Bytes}
    (hl : sps.map (textAt src) = A ++ R) (h : Runs k A k') (hR : StopsAs k' R k3) {k2 : Block.Kind} {n : Nat}
    (hm : Block.measure src k sps = .ok (k2, n)) : k2 = k3 ∧ n = A.length := by
  induction sps generalizing k A n k2 with
  | nil =>
    simp only [List.map_nil, List.nil_eq, List.append_eq_nil_iff] at hl
    obtain ⟨rfl, rfl⟩ := hl
    cases h
    cases hm
    exact ⟨hR.symm, rfl⟩
  | cons sp sps ih =>
    have hsp := hok sp (by simp)
    have htx : textAt src sp = Block.sliceOf src sp := rfl
    have hbs := Block.sliceOf_bd_safe hsp hs
    rw [Block.measure, hsp.slice] at hm
    simp only [Bind.bind, Except.bind] at hm
    cases A with
    | nil =>
      cases R with
      | nil => simp at hl
      | cons l R =>
        simp only [List.nil_append, List.map_cons, List.cons.injEq] at hl
        have hk : k = k' := h
        subst hk
        cases hcont : k.continues (Block.sliceOf src sp) with
        | error e => rw [hcont] at hm; cases hm
        | ok r =>
          have := hR r (by rw [← hl.1, htx]; exact hbs.1) (by rw [← hl.1, htx]; exact hbs.2) (by rw [← hl.1, htx]; exact hcont)
          rw [hcont] at hm
          subst this
          simp only [Bool.false_eq_true, ↓reduceIte] at hm
          cases hm
          exact ⟨rfl, rfl⟩
    | cons l A =>
      simp only [List.cons_append, List.map_cons, List.cons.injEq] at hl
      obtain ⟨k1, h1, h2⟩ := h
      cases hcont : k.continues (Block.sliceOf src sp) with
      | error e => rw [hcont] at hm; cases hm
      | ok r =>
        have := h1 r (by rw [← hl.1, htx]; exact hbs.1) (by rw [← hl.1, htx]; exact hbs.2) (by rw [← hl.1, htx]; exact hcont)
        rw [hcont] at hm
        subst this
        simp only [↓reduceIte] at hm
        cases hm2 : Block.measure src k1 sps with
        | error e => rw [hm2] at hm; cases hm
        | ok q =>
          obtain ⟨k3, m⟩ := q
          rw [hm2] at hm
          cases hm
          obtain ⟨e1, e2⟩ := ih (fun l hl => hok l (List.mem_cons_of_mem _ hl)) hl.2 h2 hm2
          exact ⟨e1, by simp [e2]⟩

/-! ## Lines -/

theorem newline_ident {r : Block.Kind × Span} (h : Block.identify [c! '\n'] = .ok r) : r = (.atom .blankline, ⟨0, 1⟩) := by
  have : Block.identify [c! '\n'] = .ok (.atom .blankline, ⟨0, 1⟩) := rfl
  rw [this] at h; cases h; rfl

theorem brk_ident {r : Block.Kind × Span} (h : Block.identify (b! "***\n") = .ok r) : r = (.atom .thematicBreak, ⟨0, 3⟩) := by
  have : Block.identify (b! "***\n") = .ok (.atom .thematicBreak, ⟨0, 3⟩) := by decide
  rw [this] at h; cases h; rfl

theorem quoted_cons (l : Bytes) : ∃ cs, quoted l = c! '>' :: cs ∧ Block.noneOrWs cs = true := by
  unfold quoted
  split
  · rename_i h
    refine ⟨l, rfl, ?_⟩
    cases l with
    | nil => rfl
    | cons c l => simp at h; simp [Block.noneOrWs, h.1]
  · exact ⟨_, rfl, rfl⟩

theorem quoted_ident (l : Bytes) : Block.identify (quoted l) = .ok (.blockquote, ⟨0, 1⟩) := by
  obtain ⟨cs, h1, h2⟩ := quoted_cons l
  rw [h1, identify_cons (.inl (by decide))]
  have : Block.identMatch 0 (c! '>' :: cs) (trimEnd (c! '>' :: cs)) (c! '>') cs = .ok (some (.blockquote, ⟨0, 1⟩)) := by
    unfold Block.identMatch
    rw [if_neg (by decide), if_neg (by decide), if_pos rfl, h2]
    rfl
  rw [this]
  rfl

/-- The opening line of a code block. -/
theorem code_opens {n : Nat} {lang : Bytes} (hn : 3 ≤ n) (hl : ∀ c ∈ lang, isWs c = false ∧ c ≠ c! '`') :
    Block.OpensFence (c! '`') 0 n lang (ticks n ++ lang ++ [c! '\n']) := by
  refine ⟨.inl rfl, hn, ⟨[], [], [c! '\n'], by simp [ticks], rfl, by simp, by simp, by simp; decide, ?_⟩, hl⟩
  intro _ hh
  exact (hl _ (List.mem_of_mem_head? hh)).2 rfl

theorem code_closes (n : Nat) : Block.closesFence (c! '`') n (ticks n ++ [c! '\n']) = true := by
  have e : ticks n ++ [c! '\n'] = List.replicate n (c! '`') ++ [c! '\n'] := rfl
  have hd : (ticks n ++ [c! '\n']).dropWhile Block.isInnerWs = ticks n ++ [c! '\n'] := by
    cases n with
    | zero => rfl
    | succ n => rw [show ticks (n + 1) ++ [c! '\n'] = c! '`' :: (ticks n ++ [c! '\n']) by simp [ticks, List.replicate_succ], List.dropWhile_cons_of_neg (by decide)]
  unfold Block.closesFence
  simp only [hd]
  rw [e, Block.takeWhile_replicate_append (by decide)]
  have : (List.replicate n (c! '`') ++ [c! '\n']).dropWhile (· == c! '`') = [c! '\n'] := by
    rw [Block.dropWhile_append_all (by intro x hx; simp at hx; simp [hx.2])]
    decide
  rw [this]
  simp
  decide

theorem isName_ws {c : UInt8} (h : Attr.isName c = true) : isWs c = false := by
  have : ∀ c : UInt8, isWs c = true → Attr.isName c = false := by
    intro c hc
    simp only [isWs, Bool.or_eq_true, beq_iff_eq] at hc
    rcases hc with (((h | h) | h) | h) | h <;> subst h <;> decide
  cases hw : isWs c with
  | false => rfl
  | true => rw [this c hw] at h; cases h

/-- A line of colons, whitespace and a class. -/
theorem colons_ident {n : Nat} {ws cls : Bytes} (hn : 3 ≤ n) (hw : ∀ c ∈ ws, isWs c = true) (hc : ∀ c ∈ cls, Attr.isName c = true ∧ isWs c = false)
    (hm : ws = [] → cls = []) {r : Block.Kind × Span}
    (h : Block.identify (colons n ++ ws ++ cls ++ [c! '\n']) = .ok r) :
    r = (.fenced 0 n .div cls false none, ⟨0, (colons n ++ ws ++ cls ++ [c! '\n']).length⟩) := by
  obtain ⟨m, rfl⟩ : ∃ m, n = m + 2 := ⟨n - 2, by omega⟩
  have e : colons (m + 2) ++ ws ++ cls ++ [c! '\n'] = c! ':' :: (colons (m + 1) ++ ws ++ cls ++ [c! '\n']) := by
    simp [colons, List.replicate_succ]
  have hcount : Lex.countWhile (· == c! ':') (colons (m + 1) ++ ws ++ cls ++ [c! '\n']) = m + 1 := by
    have e1 : colons (m + 1) ++ ws ++ cls ++ [c! '\n'] = List.replicate (m + 1) (c! ':') ++ (ws ++ cls ++ [c! '\n']) := by simp [colons]
    unfold Lex.countWhile
    rw [e1, Block.takeWhile_replicate_append]
    · simp
    · cases ws with
      | nil => rw [hm rfl]; decide
      | cons w ws =>
        have := hw w (by simp)
        simp only [List.cons_append, List.head?_cons, ne_eq, Option.some.injEq]
        rintro rfl
        exact absurd this (by decide)
  have htrim : ∃ t, (∀ c ∈ t, isWs c = true) ∧ trimEnd (colons (m + 2) ++ ws ++ cls ++ [c! '\n']) ++ t = colons (m + 2) ++ ws ++ cls ++ [c! '\n'] ∧
      trimStart ((trimEnd (colons (m + 2) ++ ws ++ cls ++ [c! '\n'])).drop (m + 2)) = cls ∧ m + 2 ≤ (trimEnd (colons (m + 2) ++ ws ++ cls ++ [c! '\n'])).length := by
    rw [Block.trimEnd_append_ws (by simp; decide)]
    by_cases hcls : cls = []
    · subst hcls
      rw [List.append_nil, Block.trimEnd_append_ws hw, Block.trimEnd_of_last]
      · refine ⟨ws ++ [c! '\n'], ?_, by simp, ?_, by simp [colons]⟩
        · intro c hc
          rcases List.mem_append.1 hc with h | h
          · exact hw c h
          · simp at h; subst h; decide
        · simp [colons, trimStart]
      · intro x hx
        have := List.mem_of_getLast? hx
        simp [colons] at this
        subst this; decide
    · rw [Block.trimEnd_of_last]
      · refine ⟨[c! '\n'], by simp; decide, rfl, ?_, by simp [colons]⟩
        rw [List.append_assoc, List.drop_append_of_le_length (by simp [colons])]
        have : (colons (m + 2)).drop (m + 2) = [] := by simp [colons]
        rw [this, List.nil_append]
        unfold trimStart
        rw [Block.dropWhile_append_all hw]
        cases cls with
        | nil => rfl
        | cons c cls => rw [List.dropWhile_cons_of_neg (by simp [(hc c (by simp)).2])]
      · intro x hx
        rw [List.getLast?_append] at hx
        cases hl : cls.getLast? with
        | none => rw [List.getLast?_eq_none_iff] at hl; exact absurd hl hcls
        | some y =>
          rw [hl] at hx
          simp at hx
          subst hx
          exact (hc y (List.mem_of_getLast? hl)).2
  obtain ⟨t, -, -, hspec, hlen⟩ := htrim
  rw [e] at h hspec hlen ⊢
  rw [identify_cons (.inl (by decide))] at h
  obtain ⟨o, ho, h⟩ := bind_ok h
  cases h
  unfold Block.identMatch at ho
  rw [if_neg (by decide), if_neg (by decide), if_neg (by decide), if_neg (by decide), if_neg (by decide), if_neg (by decide),
    if_neg (by rintro ⟨h | h, _⟩ <;> exact absurd h (by decide)), if_neg (by decide), if_neg ?_, if_pos (by decide)] at ho
  · unfold Block.identFence at ho
    rw [hcount] at ho
    obtain ⟨v, hv, ho⟩ := bind_ok ho
    have hv' : v = (trimEnd (c! ':' :: (colons (m + 1) ++ ws ++ cls ++ [c! '\n']))).drop (m + 2) := by
      unfold strSlice at hv
      split at hv
      · cases hv
        rw [List.take_of_length_le (by simp), Nat.add_comm 1 (m + 1)]
      · cases hv
    have hall : cls.all Attr.isName = true := by simp; exact fun c hx => (hc c hx).1
    rw [hv', hspec] at ho
    simp only [↓reduceIte, hall] at ho
    rw [if_pos (by simp; omega)] at ho
    cases ho
    simp
    omega
  · rintro ⟨_, h⟩
    simp [colons, List.replicate_succ, Block.noneOrWs] at h
    exact absurd h (by decide)

theorem div_opens {n : Nat} {cls : Bytes} (hn : 3 ≤ n) (hc : ∀ c ∈ cls, Attr.isName c = true) {r : Block.Kind × Span}
    (h : Block.identify (colons n ++ c! ' ' :: cls ++ [c! '\n']) = .ok r) :
    r = (.fenced 0 n .div cls false none, ⟨0, (colons n ++ c! ' ' :: cls ++ [c! '\n']).length⟩) := by
  have e : colons n ++ c! ' ' :: cls ++ [c! '\n'] = colons n ++ [c! ' '] ++ cls ++ [c! '\n'] := by simp
  rw [e] at h ⊢
  exact colons_ident hn (by simp; decide) (fun c h => ⟨hc c h, isName_ws (hc c h)⟩) (by simp) h

theorem div_closes {n : Nat} (hn : 3 ≤ n) {r : Block.Kind × Span}
    (h : Block.identify (colons n ++ [c! '\n']) = .ok r) : r = (.fenced 0 n .div [] false none, ⟨0, (colons n ++ [c! '\n']).length⟩) := by
  have e : colons n ++ [c! '\n'] = colons n ++ [] ++ [] ++ [c! '\n'] := by simp
  rw [e] at h ⊢
  exact colons_ident hn (by simp) (by simp) (by simp) h

/-! ## Lines in a div -/

/-- An open div. -/
def divKind (n : Nat) (cls : Bytes) (nested : Option (UInt8 × Nat)) : Block.Kind := .fenced 0 n .div cls false nested

theorem div_continues {n : Nat} {cls : Bytes} {nested : Option (UInt8 × Nat)} {l : Bytes} {r : Bool × Block.Kind} (h : (divKind n cls nested).continues l = .ok r) :
    ∃ next sp, Block.identify l = .ok (next, sp) ∧ r = (true, Block.fenceContinues 0 n .div cls false nested next) := by
  unfold divKind Block.Kind.continues at h
  simp only [Bool.false_eq_true, ↓reduceIte] at h
  obtain ⟨⟨next, sp⟩, h1, h⟩ := bind_ok h
  cases h
  exact ⟨next, sp, h1, rfl⟩

theorem fenceContinues_other {n : Nat} {cls : Bytes} {nested : Option (UInt8 × Nat)} {next : Block.Kind}
    (h : ∀ i n k sp cl nr, next ≠ .fenced i n k sp cl nr) : Block.fenceContinues 0 n .div cls false nested next = divKind n cls nested := by
  cases next with
  | fenced i n k sp cl nr => exact absurd rfl (h i n k sp cl nr)
  | _ => rfl

theorem div_notFence {n : Nat} {cls : Bytes} {nested : Option (UInt8 × Nat)} {l : Bytes} (hl : NotFence l) {r : Bool × Block.Kind} (h : (divKind n cls nested).continues l = .ok r) :
    r = (true, divKind n cls nested) := by
  obtain ⟨next, sp, h1, h2⟩ := div_continues h
  rw [h2, fenceContinues_other (hl _ h1)]

/-- Indentation does not matter in a div. -/
theorem div_pad {k n : Nat} {cls : Bytes} {nested : Option (UInt8 × Nat)} {l : Bytes} {r : Bool × Block.Kind} (h : (divKind n cls nested).continues (padded k l) = .ok r) :
    (divKind n cls nested).continues l = .ok r := by
  rcases padded_eq k l with e | e
  · rw [e] at h; exact h
  · rw [e] at h
    obtain ⟨next, sp, h1, rfl⟩ := div_continues h
    obtain ⟨r', h2, e2⟩ := identify_pad h1
    have e3 : next = deeper k r'.1 := by rw [← shiftRead_fst, ← e2]
    unfold divKind Block.Kind.continues
    simp only [Bool.false_eq_true, ↓reduceIte, h2, Bind.bind, Except.bind, pure, Except.pure, Except.ok.injEq, Prod.mk.injEq, true_and]
    rw [e3]
    cases r'.1 <;> rfl

theorem spaces_bd {k : Nat} {l : Bytes} (hb : Bd (spaces k ++ l)) (hs : Safe (spaces k ++ l)) : Bd l ∧ Safe l := by
  induction k with
  | zero => exact ⟨hb, hs⟩
  | succ k ih =>
    have e : spaces (k + 1) ++ l = c! ' ' :: (spaces k ++ l) := by simp [spaces, List.replicate_succ]
    rw [e] at hs
    exact ih (hs.1 (by decide)) hs.2

theorem padded_bd {k : Nat} {l : Bytes} (hb : Bd (padded k l)) (hs : Safe (padded k l)) : Bd l ∧ Safe l := by
  rcases padded_eq k l with e | e
  · rw [e] at hb hs; exact ⟨hb, hs⟩
  · rw [e] at hb hs; exact spaces_bd hb hs

theorem padded_zero (l : Bytes) : padded 0 l = l := by
  rcases padded_eq 0 l with e | e
  · exact e
  · rw [e]; rfl

theorem padded_padded (j k : Nat) (l : Bytes) : padded j (padded k l) = padded (j + k) l := by
  unfold padded
  by_cases h : l.all isWs = true
  · simp [h]
  · have : (List.replicate k (c! ' ') ++ l).all isWs = false := by simp [List.all_append] at h ⊢; exact fun _ => h
    simp only [h, Bool.false_eq_true, if_false]
    rw [this]
    simp [← List.append_assoc, List.replicate_append_replicate]

/-- A line in a code block in a div. -/
theorem div_codeLine {m n : Nat} {cls : Bytes} {l : Bytes} (hn : 3 ≤ m) (hb : Bd l) (hs : Safe l) {r : Bool × Block.Kind}
    (h : (divKind n cls (some (c! '`', m))).continues l = .ok r) :
    r = (true, divKind n cls (if Block.closesFence (c! '`') m l then none else some (c! '`', m))) := by
  obtain ⟨next, sp, h1, h2⟩ := div_continues h
  have hstep := Block.fence_step (indent := 0) (spec := []) (.inl rfl) hn hb hs
  unfold Block.Kind.continues at hstep
  simp only [Bool.false_eq_true, ↓reduceIte, h1, Bind.bind, Except.bind, pure, Except.pure, Except.ok.injEq, Prod.mk.injEq, true_and] at hstep
  rw [h2]
  by_cases hf : ∀ i n k sp cl nr, next ≠ .fenced i n k sp cl nr
  · have : Block.closesFence (c! '`') m l = false := by
      cases next with
      | fenced i n k sp cl nr => exact absurd rfl (hf i n k sp cl nr)
      | _ =>
        simp only [Block.fenceContinues, Block.Kind.fenced.injEq] at hstep
        exact hstep.2.2.2.2.1.symm
    rw [fenceContinues_other hf, this]; rfl
  · cases next with
    | fenced i j k sp cl nr =>
      simp only [Block.fenceContinues] at hstep ⊢
      by_cases hk : k = .codeBlock (c! '`')
      · subst hk
        simp only [↓reduceIte, Block.Kind.fenced.injEq, true_and, and_true] at hstep
        rw [← hstep]
        by_cases hc : m ≤ j ∧ sp.isEmpty = true
        · rw [if_pos ⟨rfl, hc⟩, if_pos (by simp [hc])]; rfl
        · rw [if_neg (by rintro ⟨_, h⟩; exact hc h), if_neg (by simpa using hc)]; rfl
      · simp only [hk, ↓reduceIte, reduceCtorEq, Block.Kind.fenced.injEq] at hstep
        rw [← hstep.2.2.2.2.1, if_neg (by rintro ⟨h, _⟩; exact hk h.symm)]
        rfl
    | _ => exact absurd (by simp) hf

end Jotdown.Round
