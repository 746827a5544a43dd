import Verif.Proofs.Marker
/-! # Identification of a block is the specified syntax: what is identified -/
namespace Jotdown.Block
open Jotdown Syntax

/-- The kind of block that an opening begins. -/
inductive Opens : Kind → Opening → Prop
  | blank : Opens (.atom .blankline) .blank
  | attributes : Opens (.atom .attributes) .attributes
  | thematicBreak : Opens (.atom .thematicBreak) .thematicBreak
  | heading {n} : Opens (.heading n) (.heading n)
  | blockquote : Opens .blockquote .blockquote
  | table {a b} : Opens (.table a b) .table
  | link {i l b} : Opens (.definition i false l b) (.linkDefinition l)
  | footnote {i l b} : Opens (.definition i true l b) (.footnote l)
  | code {i n c s b r} : Opens (.fenced i n (.codeBlock c) s b r) (.code s)
  | div {i n s b r} : Opens (.fenced i n .div s b r) (.div s)
  | unordered {i c b} : Opens (.listItem i (.unordered c) b) (.unordered c)
  | task {i c b x} : Opens (.listItem i (.task c) b) (.task c x)
  | ordered {i n s b} : Opens (.listItem i (.ordered n s) b) (.ordered n.numbering s n.value)
  | description {i b} : Opens (.listItem i .description b) .description

/-- What is known about an identified block. -/
def Read (indent : Nat) (line : Bytes) (r : Option (Kind × Span)) : Prop :=
  ∀ k sp, r = some (k, sp) → ∃ o n, Marker line o n ∧ Opens k o ∧ sp.stop = indent + n ∧ sp.start ≤ indent ∧
    ((∀ i f l b, k ≠ .definition i f l b) → sp.start = indent)

theorem read_none {indent : Nat} {line : Bytes} : Read indent line none := by intro _ _ h; cases h

theorem read_some {indent : Nat} {line : Bytes} {k : Kind} {n : Nat} {o : Opening} {sp : Span} (h : Marker line o n) (ho : Opens k o)
    (h1 : sp.stop = indent + n) (h2 : sp.start = indent) : Read indent line (some (k, sp)) := by
  intro k' sp' he
  simp only [Option.some.injEq, Prod.mk.injEq] at he
  obtain ⟨rfl, rfl⟩ := he
  exact ⟨o, n, h, ho, h1, by omega, fun _ => h2⟩

theorem spaced_iff {r : Bytes} : noneOrWs r = true ↔ Spaced r := by
  cases r with
  | nil => simp [noneOrWs, Spaced]
  | cons c r => simp [noneOrWs, Spaced]

/-- The run at the beginning of a text. -/
theorem run_split (f : UInt8) (s : Bytes) : s = List.replicate (Lex.countWhile (· == f) s) f ++ s.dropWhile (· == f) ∧
    (s.dropWhile (· == f)).head? ≠ some f := by
  constructor
  · have h := List.takeWhile_append_dropWhile (p := (· == f)) (l := s)
    have h2 : s.takeWhile (· == f) = List.replicate (Lex.countWhile (· == f) s) f := by
      unfold Lex.countWhile
      rw [List.eq_replicate_iff]
      refine ⟨rfl, fun b hb => ?_⟩
      have := List.all_eq_true.1 List.all_takeWhile b hb
      simpa using this
    rw [← h2, h]
  · intro h
    have := List.head?_dropWhile_not (· == f) s
    rw [h] at this
    simp at this

theorem thematicLoop_iff (n : Nat) (s : Bytes) : thematicLoop n s = true ↔
    (∀ c ∈ s, isMark c = true ∨ isWs c = true) ∧ 3 ≤ n + (s.filter isMark).length := by
  induction s generalizing n with
  | nil => simp [thematicLoop]
  | cons c s ih =>
    unfold thematicLoop
    by_cases h1 : c = c! '-' ∨ c = c! '*'
    · rw [if_pos h1, ih]
      have hm : isMark c = true := by rcases h1 with h | h <;> subst h <;> decide
      rw [List.filter_cons_of_pos hm]
      simp only [List.mem_cons, forall_eq_or_imp, hm, true_or, true_and, List.length_cons]
      have : n + 1 + (s.filter isMark).length = n + ((s.filter isMark).length + 1) := by omega
      rw [this]
    · have hm : isMark c = false := by
        simp only [not_or] at h1
        simp [isMark, h1.1, h1.2]
      rw [if_neg h1, List.filter_cons_of_neg (by simp [hm])]
      by_cases h2 : isWs c = true
      · rw [if_pos h2, ih]
        simp [h2]
      · rw [if_neg h2]
        simp [hm, h2]

theorem isThematic_iff {b : UInt8} {chars : Bytes} (hb : isMark b = true) : isThematicBreak chars = true ↔ BreakLine (b :: chars) := by
  unfold isThematicBreak BreakLine
  rw [thematicLoop_iff, List.filter_cons_of_pos hb]
  simp [hb, Nat.add_comm]

theorem strSlice_val {s r : Bytes} {a b : Nat} (h : strSlice s a b = .ok r) : r = (s.drop a).take (b - a) := by
  unfold strSlice at h
  split at h
  · exact (Except.ok.inj h).symm
  · cases h

theorem identDefinition_read {indent : Nat} {chars : Bytes} {r : Option (Kind × Span)} (h : identDefinition indent chars = .ok r) :
    Read indent (c! '[' :: chars) r := by
  unfold identDefinition at h
  cases hf : findByte (c! ']') chars with
  | none => rw [hf] at h; cases h; exact read_none
  | some l =>
    rw [hf] at h
    simp only at h
    obtain ⟨h1, h2⟩ := findByte_some hf
    obtain ⟨after, ha, h⟩ := bind_ok h
    split at h
    · rename_i hc
      obtain ⟨lab, hl, h⟩ := bind_ok h
      obtain ⟨lab', hl', h⟩ := bind_ok h
      cases h
      have hlen : l < chars.length := by rw [List.getElem?_eq_some_iff] at h1; exact h1.1
      have ha' := strSlice_val ha
      have hl2 := strSlice_val hl
      have hl3 := strSlice_val hl'
      simp only [List.drop_zero, Nat.sub_zero] at hl2
      subst hl2
      rw [List.take_of_length_le (by simp)] at ha'
      subst ha'
      have hsplit : chars = chars.take l ++ b! "]:" ++ chars.drop (l + 2) := by
        have e1 : chars.drop l = c! ']' :: chars.drop (l + 1) := by
          rw [List.drop_eq_getElem?_toList_append, h1]; simp
        have e2 : chars.drop (l + 1) = c! ':' :: chars.drop (l + 2) := by
          rw [List.head?_drop] at hc
          rw [List.drop_eq_getElem?_toList_append, hc]; simp
        conv => lhs; rw [← List.take_append_drop l chars, e1, e2]
        simp
      have hno : c! ']' ∉ chars.take l := by
        intro hm
        obtain ⟨i, hi⟩ := List.mem_iff_getElem?.1 hm
        have hil : i < l := by
          have := (List.getElem?_eq_some_iff.1 hi).1
          simp at this; omega
        rw [List.getElem?_take_of_lt hil] at hi
        exact h2 i hil hi
      have htl : (chars.take l).length = l := by simp; omega
      generalize chars.take l = lab0 at *
      generalize chars.drop (l + 2) = r at *
      subst hsplit
      intro k sp he
      simp only [Option.some.injEq, Prod.mk.injEq] at he
      obtain ⟨rfl, rfl⟩ := he
      by_cases hfn : lab0.head? = some (c! '^')
      · rw [hfn] at hl3 ⊢
        simp only [beq_self_eq_true, if_true] at hl3 ⊢
        cases lab0 with
        | nil => simp at hfn
        | cons c lab =>
          simp at hfn
          subst hfn
          simp at hl3
          subst hl3
          have := Marker.footnote (label := lab') (r := r) (by simp at hno; exact hno)
          refine ⟨_, _, this, .footnote, ?_, by simp, fun hk => absurd rfl (hk _ _ _ _)⟩
          simp at htl ⊢; omega
      · have hb : (lab0.head? == some (c! '^')) = false := by simpa using hfn
        rw [hb] at hl3 ⊢
        simp at hl3
        subst hl3
        have := Marker.linkDefinition (label := lab') (r := r) hno hfn
        refine ⟨_, _, this, .link, ?_, by simp, fun hk => absurd rfl (hk _ _ _ _)⟩
        simp at htl ⊢; omega
    · cases h; exact read_none

theorem isTask_iff {chars : Bytes} : isTask (chars.drop 1) = true ∧ chars.head? = some (c! ' ') ↔
    ∃ x s, chars = b! " [" ++ x :: c! ']' :: s ∧ x ∈ b! "xX " ∧ Spaced s := by
  constructor
  · intro ⟨h, h2⟩
    cases chars with
    | nil => simp at h2
    | cons c0 chars =>
      simp at h2; subst h2
      simp only [List.drop_succ_cons, List.drop_zero] at h
      unfold isTask at h
      split at h
      · rename_i a b c rest
        simp only [Bool.and_eq_true, Bool.or_eq_true, beq_iff_eq] at h
        obtain ⟨⟨⟨rfl, hb⟩, rfl⟩, hr⟩ := h
        exact ⟨b, rest, rfl, by rcases hb with (rfl | rfl) | rfl <;> decide, spaced_iff.1 hr⟩
      · cases h
  · intro ⟨x, s, h, hx, hs⟩
    subst h
    refine ⟨?_, rfl⟩
    have : isTask (c! '[' :: x :: c! ']' :: s) = true := by
      unfold isTask
      simp only [Bool.and_eq_true, Bool.or_eq_true, beq_iff_eq]
      refine ⟨⟨⟨trivial, ?_⟩, trivial⟩, spaced_iff.2 hs⟩
      have hx' : x ∈ [c! 'x', c! 'X', c! ' '] := hx
      simpa [or_assoc] using hx'
    exact this

theorem identBullet_read {indent : Nat} {b : UInt8} {chars : Bytes} (hb : b ∈ b! "-*+")
    (hn : ¬ BreakLine (b :: chars)) : Read indent (b :: chars) (identBullet indent b chars) := by
  unfold identBullet
  refine Lex.ite_intro (fun h => ?_) (fun _ => read_none)
  replace h : chars = [] ∨ chars.head? = some (c! ' ') := by
    cases chars with
    | nil => exact Or.inl rfl
    | cons c cs => right; simpa using h
  refine Lex.ite_intro (fun ht => ?_) (fun ht => ?_)
  · have hh : chars.head? = some (c! ' ') := by
      rcases h with rfl | h
      · cases ht
      · exact h
    obtain ⟨x, s, rfl, hx, hs⟩ := isTask_iff.1 ⟨ht, hh⟩
    exact read_some (Marker.task hb hx hs) .task rfl rfl
  · refine read_some (Marker.unordered hb h hn ?_) .unordered rfl rfl
    intro x s hc hx hs
    exact ht (isTask_iff.2 ⟨x, s, hc, hx, hs⟩).1

theorem trim_comm (r : Bytes) : trim r = trimStart (trimEnd r) := by
  unfold trim trimStart
  induction r with
  | nil => rfl
  | cons c r ih =>
    by_cases hc : isWs c = true
    · rw [List.dropWhile_cons_of_pos hc, ih]
      by_cases hr : trimEnd r = []
      · have : trimEnd (c :: r) = [] := by
          obtain ⟨w, hw, hws⟩ := trimEnd_spec r
          rw [hr, List.nil_append] at hw
          have := trimEnd_append_ws (a := []) (b := c :: r) (by
            intro x hx
            rcases List.mem_cons.1 hx with rfl | hx
            · exact hc
            · rw [hw] at hx; exact hws x hx)
          simpa [trimEnd] using this
        rw [hr, this]
      · have := trimEnd_append_ne (a := [c]) hr
        simp only [List.singleton_append] at this
        rw [this, List.dropWhile_cons_of_pos hc]
    · rw [List.dropWhile_cons_of_neg hc]
      obtain ⟨Z, hZ⟩ : ∃ Z, trimEnd (c :: r) = c :: Z := by
        by_cases hr : trimEnd r = []
        · obtain ⟨w, hw, hws⟩ := trimEnd_spec r
          rw [hr, List.nil_append] at hw
          have h1 := trimEnd_append_ws (a := [c]) (b := r) (by rw [hw]; exact hws)
          have h2 := trimEnd_concat (a := []) (c := c) (by simpa using hc)
          simp only [List.singleton_append, List.nil_append] at h1 h2
          exact ⟨[], by rw [h1, h2]⟩
        · have := trimEnd_append_ne (a := [c]) hr
          exact ⟨_, this⟩
      rw [hZ, List.dropWhile_cons_of_neg hc]

/-- The rest of a fence line, without the whitespace around it. -/
theorem fence_spec {n : Nat} {f : UInt8} {r : Bytes} (hf : isWs f = false) (hn : 1 ≤ n) :
    trimStart ((trimEnd (List.replicate n f ++ r)).drop n) = trim r := by
  obtain ⟨w, hw, hws⟩ := trimEnd_spec r
  have h1 : trimEnd (List.replicate n f ++ r) = List.replicate n f ++ trimEnd r := by
    by_cases h : trimEnd r = []
    · rw [h, List.nil_append] at hw
      have hr : ∀ c ∈ r, isWs c = true := by rw [hw]; exact hws
      rw [trimEnd_append_ws hr, h, List.append_nil]
      refine trimEnd_of_last fun x hx => ?_
      rw [List.getLast?_replicate, if_neg (by omega)] at hx
      cases hx; exact hf
    · exact trimEnd_append_ne h
  rw [h1, List.drop_append, List.drop_of_length_le (by simp)]
  simp only [List.length_replicate, Nat.sub_self, List.drop_zero, List.nil_append]
  exact (trim_comm r).symm

theorem identFence_read {indent : Nat} {f : UInt8} {chars : Bytes} {r : Option (Kind × Span)} (hf : f = c! '`' ∨ f = c! ':' ∨ f = c! '~')
    (h : identFence indent f (f :: chars) (trimEnd (f :: chars)) chars = .ok r) : Read indent (f :: chars) r := by
  have hfw : isWs f = false := by rcases hf with rfl | rfl | rfl <;> decide
  unfold identFence at h
  obtain ⟨spec, h1, h⟩ := bind_ok h
  have h1' := strSlice_val h1
  rw [List.take_of_length_le (by simp)] at h1'
  have hline : f :: chars = List.replicate (1 + Lex.countWhile (· == f) chars) f ++ chars.dropWhile (· == f) := by
    rw [Nat.add_comm, List.replicate_succ, List.cons_append, ← (run_split f chars).1]
  have hhead := (run_split f chars).2
  generalize 1 + Lex.countWhile (· == f) chars = n at *
  generalize chars.dropWhile (· == f) = t at *
  have hsp : 1 ≤ n → trimStart spec = trim t := by
    intro hn
    rw [h1', hline]
    exact fence_spec hfw hn
  have hlen : (f :: chars).length = n + t.length := by rw [hline]; simp
  by_cases hfc : f = c! ':'
  · simp only [if_pos hfc] at h
    split at h
    · rename_i hv
      simp only [Bool.and_eq_true, decide_eq_true_eq] at hv
      obtain ⟨hv, hn⟩ := hv
      rw [hsp (by omega)] at hv h
      cases h
      subst hfc
      refine read_some (o := .div (trim t)) (n := n + t.length) ?_ .div ?_ rfl
      · rw [hline]
        exact .div hn hhead (by simpa using hv)
      · simp only [hlen]
    · cases h; exact read_none
  · simp only [if_neg hfc] at h
    split at h
    · rename_i hv
      simp only [Bool.and_eq_true, decide_eq_true_eq] at hv
      obtain ⟨hv, hn⟩ := hv
      rw [hsp (by omega)] at hv h
      cases h
      refine read_some (o := .code (trim t)) (n := n + t.length) ?_ .code ?_ rfl
      · rw [hline]
        refine .code ?_ hn hhead ?_
        · rcases hf with h | h | h
          · exact Or.inl h
          · exact absurd h hfc
          · exact Or.inr h
        · simp only [Bool.not_eq_true', List.any_eq_false] at hv
          intro c hc
          have h1 := hv.1 c hc
          have h2 := hv.2 c hc
          simp at h1 h2
          exact ⟨h1, h2⟩
      · simp only [hlen]
    · cases h; exact read_none

theorem numeralOk {k : Numbering} {n : Bytes} (hl : n.length ≤ maxLen k) {c : UInt8} {t : Bytes} (hn : n = c :: t)
    (hk : numberingOf c = some k) : NumeralOk k n := by
  subst hn
  cases k
  · exact hl
  · simp only [maxLen, List.length_cons] at hl
    have : t = [] := List.length_eq_zero_iff.1 (by omega)
    subst this
    refine ⟨rfl, fun d hd => ?_⟩
    simp at hd; subst hd
    revert hk; revert d; apply ofFin; decide +kernel
  · simp only [maxLen, List.length_cons] at hl
    have : t = [] := List.length_eq_zero_iff.1 (by omega)
    subst this
    refine ⟨rfl, fun d hd => ?_⟩
    simp at hd; subst hd
    revert hk; revert d; apply ofFin; decide +kernel
  · exact hl
  · exact hl

theorem firstLine_cons_newline {cs : Bytes} (h : firstLine (c! '\n' :: cs) = c! '\n' :: cs) : cs = [] := by
  unfold firstLine at h
  simpa using h.symm

/-- What is identified is what is written. -/
theorem identMatch_read {indent : Nat} {first : UInt8} {chars : Bytes} {r : Option (Kind × Span)}
    (hb : Bd (first :: chars)) (hs : Safe (first :: chars)) (hone : firstLine (first :: chars) = first :: chars)
    (h : identMatch indent (first :: chars) (trimEnd (first :: chars)) first chars = .ok r) : Read indent (first :: chars) r := by
  unfold identMatch at h
  split at h
  · rename_i hc
    subst hc
    cases h
    have := firstLine_cons_newline hone
    subst this
    exact read_some .newline .blank rfl rfl
  split at h
  · rename_i hc; subst hc
    cases h
    split
    · rename_i hw
      have hline := (run_split (c! '#') (c! '#' :: chars)).1
      have hd : (c! '#' :: chars).dropWhile (· == c! '#') = chars.dropWhile (· == c! '#') := List.dropWhile_cons_of_pos (by simp)
      rw [hd] at hline
      have hn : 1 ≤ Lex.countWhile (· == c! '#') (c! '#' :: chars) := by simp [Lex.countWhile, List.takeWhile_cons]
      generalize Lex.countWhile (· == c! '#') (c! '#' :: chars) = n at *
      refine read_some (o := .heading n) (n := n) ?_ .heading rfl rfl
      rw [hline]
      exact .heading hn (spaced_iff.1 hw)
    · exact read_none
  split at h
  · rename_i hc; subst hc
    cases h
    split
    · rename_i hw
      exact read_some (.blockquote (spaced_iff.1 hw)) .blockquote rfl rfl
    · exact read_none
  split at h
  · rename_i hc; subst hc
    obtain ⟨v, hv, h⟩ := bind_ok h
    cases h
    split
    · rename_i hvl
      rw [hvl] at hv
      exact read_some (.attributes ((Attr.attrLine_iff hb hs).1 hv)) .attributes rfl rfl
    · exact read_none
  split at h
  · rename_i hc; subst hc
    cases h
    split
    · rename_i ht
      unfold identTable at ht
      simp only [Bool.and_eq_true, decide_eq_true_eq, Bool.not_eq_true'] at ht
      obtain ⟨⟨h2, hsuf⟩, hesc⟩ := ht
      obtain ⟨Z, hZ⟩ : ∃ Z, trimEnd (c! '|' :: chars) = c! '|' :: Z := by
        have := trimEnd_take (c! '|' :: chars)
        cases hn : (trimEnd (c! '|' :: chars)).length with
        | zero => omega
        | succ n => rw [hn, List.take_succ_cons] at this; exact ⟨_, this⟩
      rw [hZ] at h2 hsuf hesc
      rcases List.eq_nil_or_concat Z with h0 | ⟨m, d, rfl⟩
      · subst h0; simp at h2
      rw [List.concat_eq_append] at *
      rw [List.isSuffixOf_iff_suffix] at hsuf
      obtain ⟨u, hu⟩ := hsuf
      have hd : d = c! '|' := by
        have := congrArg List.getLast? hu
        simp [List.getLast?_cons] at this
        exact this.symm
      subst hd
      refine read_some (.table (m := m) (by rw [hZ]; rfl) ?_) .table rfl rfl
      intro hl
      have : (b! "\\|").isSuffixOf (c! '|' :: (m ++ [c! '|'])) = true := by
        rw [List.isSuffixOf_iff_suffix]
        rcases List.eq_nil_or_concat m with h0 | ⟨m', e, rfl⟩
        · subst h0; cases hl
        · simp at hl; subst hl
          exact ⟨c! '|' :: m', by simp⟩
      rw [this] at hesc
      cases hesc
    · exact read_none
  split at h
  · rename_i hc; subst hc
    exact identDefinition_read h
  split at h
  · rename_i hc
    have hm : isMark first = true := by rcases hc.1 with h | h <;> subst h <;> decide
    cases h
    exact read_some (.thematicBreak hm ((isThematic_iff hm).1 hc.2)) .thematicBreak rfl rfl
  split at h
  · rename_i hnt hc
    cases h
    refine identBullet_read (by rcases hc with h | h | h <;> subst h <;> decide) ?_
    intro hbr
    rcases hc with h | h | h
    · subst h; exact hnt ⟨Or.inl rfl, (isThematic_iff (by decide)).2 hbr⟩
    · subst h; exact hnt ⟨Or.inr rfl, (isThematic_iff (by decide)).2 hbr⟩
    · subst h
      rcases hbr.1 (c! '+') (by simp) with h | h <;> revert h <;> decide
  split at h
  · rename_i hc
    obtain ⟨rfl, hw⟩ := hc
    cases h
    exact read_some (.description (spaced_iff.1 hw)) .description rfl rfl
  split at h
  · rename_i hc
    exact identFence_read hc h
  · obtain ⟨r', h1, h⟩ := bind_ok h
    cases h
    have hr := (Numbers.maybeOrderedListItem_ok _ (by simp) hs).of_ok h1
    cases r' with
    | none => exact read_none
    | some r' =>
      obtain ⟨num, style, len⟩ := r'
      obtain ⟨n, rest, h1, h2, h3, h4, h5, h6, h7, h8, c, t, h9, h10⟩ := hr num style len rfl
      refine read_some (o := .ordered num.numbering style num.value) (n := len) ?_ .ordered rfl rfl
      rw [h1, h2]
      exact .ordered h3 h4 (numeralOk h8 h9 h10) h5 (spaced_iff.1 h7)

end Jotdown.Block
