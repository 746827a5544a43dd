import Verif.Proofs.MarkerFull
/-! # A line begins at most one kind of block -/
namespace Jotdown.Block
open Jotdown Jotdown.Syntax

/-- Groups of markers that begin with the same characters. -/
def group : Opening → Nat
  | .blank => 0
  | .heading _ => 1
  | .blockquote => 2
  | .attributes => 3
  | .table => 4
  | .linkDefinition _ | .footnote _ => 5
  | .thematicBreak | .unordered _ | .task .. => 6
  | .description | .div _ => 7
  | .code _ => 8
  | .ordered .. => 9

def groupOf : Option UInt8 → Nat
  | none => 0
  | some c =>
    if c = c! '\n' then 0 else if c = c! '#' then 1 else if c = c! '>' then 2 else if c = c! '{' then 3
    else if c = c! '|' then 4 else if c = c! '[' then 5 else if c = c! '-' ∨ c = c! '*' ∨ c = c! '+' then 6
    else if c = c! ':' then 7 else if c = c! '`' ∨ c = c! '~' then 8 else 9

theorem replicate_head {n : Nat} {f : UInt8} {r : Bytes} (hn : 1 ≤ n) : (List.replicate n f ++ r).head? = some f := by
  obtain ⟨m, rfl⟩ : ∃ m, n = m + 1 := ⟨n - 1, by omega⟩
  simp [List.replicate_succ]

theorem marker_group {l : Bytes} {o : Opening} {n : Nat} (h : Marker l o n) : groupOf l.head? = group o := by
  cases h with
  | heading hn _ => rw [replicate_head hn]; rfl
  | thematicBreak hc _ =>
    simp only [List.head?_cons]
    rcases thematic_head hc with e | e <;> subst e <;> rfl
  | unordered hb _ _ _ =>
    simp only [List.head?_cons]
    simp at hb
    rcases hb with e | e | e <;> subst e <;> rfl
  | task hb _ _ =>
    simp only [List.cons_append, List.head?_cons]
    simp at hb
    rcases hb with e | e | e <;> subst e <;> rfl
  | div hn _ _ => rw [replicate_head (by omega)]; rfl
  | code hf hn _ _ =>
    rw [replicate_head (by omega)]
    rcases hf with e | e <;> subst e <;> rfl
  | @ordered k style n r v hn hd hok hv hw =>
    cases hl : Numbers.marker style n ++ r with
    | nil => cases style <;> simp [Numbers.marker] at hl
    | cons first chars =>
      have hh := ordered_head k style hn hd hl.symm
      simp only [List.head?_cons]
      rcases hh with e | e
      · subst e; rfl
      · clear hl hd hn; show groupOf (some first) = 9; revert e; revert first; apply ofFin; decide +kernel
  | _ => rfl

theorem replicate_unique {f : UInt8} {n n' : Nat} {r r' : Bytes} (h : List.replicate n f ++ r = List.replicate n' f ++ r')
    (hr : r.head? ≠ some f) (hr' : r'.head? ≠ some f) : n = n' ∧ r = r' := by
  have h1 := dropWhile_replicate_append (n := n) hr
  have h2 := dropWhile_replicate_append (n := n') hr'
  have h3 := countWhile_replicate_append (n := n) hr
  have h4 := countWhile_replicate_append (n := n') hr'
  rw [h] at h1 h3
  exact ⟨h3.symm.trans h4, h1.symm.trans h2⟩

theorem spaced_ne {r : Bytes} {c : UInt8} (h : Spaced r) (hc : isWs c = false) : r.head? ≠ some c := by
  intro e; have := h c e; rw [hc] at this; cases this

theorem label_unique {a b r s : Bytes} {c : UInt8} (ha : c ∉ a) (hb : c ∉ b) (h : a ++ c :: r = b ++ c :: s) : a = b := by
  induction a generalizing b with
  | nil =>
    cases b with
    | nil => rfl
    | cons x b => simp at h; exact absurd (by simp [h.1]) hb
  | cons y a ih =>
    cases b with
    | nil => simp at h; exact absurd (by simp [h.1]) ha
    | cons x b =>
      simp only [List.cons_append, List.cons.injEq] at h
      rw [h.1, ih (fun m => ha (by simp [m])) (fun m => hb (by simp [m])) h.2]

theorem break_no_bracket {b : UInt8} {r : Bytes} (h : BreakLine (b :: r)) : c! '[' ∉ b :: r := by
  intro hm
  rcases h.1 _ hm with e | e <;> revert e <;> decide

theorem digits_unique {k k' : Numbering} {n n' a a' : Bytes} {p p' : UInt8} (hk : k = k')
    (hd : ∀ c ∈ n, Numbers.IsDigitOf k c) (hd' : ∀ c ∈ n', Numbers.IsDigitOf k' c)
    (hp : p = c! '.' ∨ p = c! ')') (hp' : p' = c! '.' ∨ p' = c! ')') (h : n ++ p :: a = n' ++ p' :: a') : n = n' ∧ p = p' ∧ a = a' := by
  subst hk
  have no : ∀ q, q = c! '.' ∨ q = c! ')' → ¬ Numbers.IsDigitOf k q := by
    intro q hq hi
    have := (Numbers.isNumDigit_iff k q).2 hi
    have hn := numDigit_not_punct k
    rcases hq with e | e <;> subst e
    · rw [hn.1] at this; cases this
    · rw [hn.2] at this; cases this
  induction n generalizing n' with
  | nil =>
    cases n' with
    | nil => simp at h; exact ⟨rfl, h⟩
    | cons x b => simp at h; exact absurd (h.1 ▸ hd' x (by simp)) (no _ hp)
  | cons y n ih =>
    cases n' with
    | nil => simp at h; exact absurd (h.1 ▸ hd y (by simp)) (no _ hp')
    | cons x b =>
      simp only [List.cons_append, List.cons.injEq] at h
      obtain ⟨h1, h2, h3⟩ := ih (fun c m => hd c (by simp [m])) h.2 (fun c m => hd' c (by simp [m]))
      exact ⟨by rw [h.1, h1], h2, h3⟩

theorem numbering_unique {k k' : Numbering} {n n' a a' : Bytes} (hn : n ≠ []) (hn' : n' ≠ [])
    (hd : ∀ c ∈ n, Numbers.IsDigitOf k c) (hd' : ∀ c ∈ n', Numbers.IsDigitOf k' c) (hok : NumeralOk k n) (hok' : NumeralOk k' n')
    (h : n ++ a = n' ++ a') : k = k' := by
  cases n with
  | nil => exact absurd rfl hn
  | cons c n =>
    cases n' with
    | nil => exact absurd rfl hn'
    | cons c' n' =>
      simp only [List.cons_append, List.cons.injEq] at h
      have h1 := numberingOf_first hok hd
      have h2 := numberingOf_first hok' hd'
      rw [h.1, h2] at h1
      simpa using h1.symm

theorem digit_not_paren {k : Numbering} {c : UInt8} {n : Bytes} (hd : ∀ d ∈ c :: n, Numbers.IsDigitOf k d) : c ≠ c! '(' := by
  rintro rfl
  have := (Numbers.isNumDigit_iff k _).2 (hd (c! '(') (by simp))
  cases k <;> revert this <;> decide

theorem ordered_unique {k k' : Numbering} {st st' : NumStyle} {n n' r r' : Bytes} (hn : n ≠ []) (hn' : n' ≠ [])
    (hd : ∀ c ∈ n, Numbers.IsDigitOf k c) (hd' : ∀ c ∈ n', Numbers.IsDigitOf k' c) (hok : NumeralOk k n) (hok' : NumeralOk k' n')
    (h : Numbers.marker st n ++ r = Numbers.marker st' n' ++ r') : k = k' ∧ st = st' ∧ n = n' := by
  have hp : ∀ {j : Numbering} {m : Bytes}, m ≠ [] → (∀ c ∈ m, Numbers.IsDigitOf j c) → m.head? ≠ some (c! '(') := by
    intro j m hm hj
    cases m with
    | nil => exact absurd rfl hm
    | cons c m => simpa using digit_not_paren hj
  have pq : ∀ {j j' : Numbering} {m m' a a' : Bytes} {p p' : UInt8}, m ≠ [] → m' ≠ [] → (∀ c ∈ m, Numbers.IsDigitOf j c) →
      (∀ c ∈ m', Numbers.IsDigitOf j' c) → NumeralOk j m → NumeralOk j' m' → p = c! '.' ∨ p = c! ')' → p' = c! '.' ∨ p' = c! ')' →
      m ++ p :: a = m' ++ p' :: a' → j = j' ∧ p = p' ∧ m = m' := by
    intro j j' m m' a a' p p' h1 h2 h3 h4 h5 h6 h7 h8 h9
    have e := numbering_unique h1 h2 h3 h4 h5 h6 h9
    have := digits_unique e h3 h4 h7 h8 h9
    exact ⟨e, this.2.1, this.1⟩
  have no : ∀ {j : Numbering} {m a b : Bytes} {p : UInt8}, m ≠ [] → (∀ c ∈ m, Numbers.IsDigitOf j c) →
      m ++ p :: a = c! '(' :: b → False := by
    intro j m a b p h1 h2 h3
    have h4 := hp h1 h2
    cases m with
    | nil => exact h1 rfl
    | cons c m => simp at h3 h4; exact h4 h3.1
  cases st <;> cases st' <;> simp only [Numbers.marker, List.append_assoc, List.cons_append, List.nil_append] at h
  · have := pq hn hn' hd hd' hok hok' (by decide) (by decide) h; exact ⟨this.1, rfl, this.2.2⟩
  · have := pq hn hn' hd hd' hok hok' (by decide) (by decide) h; exact absurd this.2.1 (by decide)
  · exact absurd h (no hn hd)
  · have := pq hn hn' hd hd' hok hok' (by decide) (by decide) h; exact absurd this.2.1 (by decide)
  · have := pq hn hn' hd hd' hok hok' (by decide) (by decide) h; exact ⟨this.1, rfl, this.2.2⟩
  · exact absurd h (no hn hd)
  · exact absurd h.symm (no hn' hd')
  · exact absurd h.symm (no hn' hd')
  · simp only [List.cons.injEq, true_and] at h
    have := pq hn hn' hd hd' hok hok' (by decide) (by decide) h; exact ⟨this.1, rfl, this.2.2⟩

/-- A line begins at most one block, with one marker. -/
theorem marker_unique {l : Bytes} {o o' : Opening} {n n' : Nat} (h : Marker l o n) (h' : Marker l o' n') : o = o' ∧ n = n' := by
  have hg : group o = group o' := by rw [← marker_group h, ← marker_group h']
  cases h with
  | empty =>
    generalize hl : ([] : Bytes) = l at h'
    cases h' <;> first | exact ⟨rfl, rfl⟩ | (exfalso; revert hg; simp [group]; done) | (simp at hl; done)
  | newline =>
    generalize hl : b! "\n" = l at h'
    cases h' <;> first | exact ⟨rfl, rfl⟩ | (exfalso; revert hg; simp [group]; done) | (simp at hl; done)
  | blockquote _ => 
    generalize hl : c! '>' :: _ = l at h'
    cases h' <;> first | exact ⟨rfl, rfl⟩ | (exfalso; revert hg; simp [group]; done)
  | attributes _ =>
    generalize hl : c! '{' :: _ = l at h'
    cases h' <;> first | (simp at hl; subst hl; exact ⟨rfl, rfl⟩) | (exfalso; revert hg; simp [group]; done)
  | table _ _ =>
    generalize hl : c! '|' :: _ = l at h'
    cases h' <;> first | exact ⟨rfl, rfl⟩ | (exfalso; revert hg; simp [group]; done)
  | heading hn hr =>
    generalize hl : (_ ++ _ : Bytes) = l at h'
    cases h' with
    | heading hn' hr' =>
      have := replicate_unique hl (spaced_ne hr (by decide)) (spaced_ne hr' (by decide))
      rw [this.1]; exact ⟨rfl, rfl⟩
    | _ => exfalso; revert hg; simp [group]
  | code hf hn hr _ =>
    generalize hl : (_ ++ _ : Bytes) = l at h'
    cases h' with
    | code hf' hn' hr' _ =>
      have hh := congrArg List.head? hl
      rw [replicate_head (by omega), replicate_head (by omega)] at hh
      simp only [Option.some.injEq] at hh
      subst hh
      have := replicate_unique hl hr hr'
      rw [this.1, this.2]; exact ⟨rfl, rfl⟩
    | _ => exfalso; revert hg; simp [group]
  | div hn hr _ =>
    generalize hl : (_ ++ _ : Bytes) = l at h'
    cases h' with
    | div hn' hr' _ =>
      have := replicate_unique hl hr hr'
      rw [this.1, this.2]; exact ⟨rfl, rfl⟩
    | description hw =>
      have := (replicate_append_cons (by omega) hl.symm).2
      rw [this] at hw
      exact absurd (replicate_head (by omega)) (spaced_ne hw (by decide))
    | _ => exfalso; revert hg; simp [group]
  | description hw =>
    generalize hl : _ :: _ = l at h'
    cases h' with
    | description _ => exact ⟨rfl, rfl⟩
    | div hn hr _ =>
      have := (replicate_append_cons (by omega) hl).2
      rw [this] at hw
      exact absurd (replicate_head (by omega)) (spaced_ne hw (by decide))
    | _ => exfalso; revert hg; simp [group]
  | @linkDefinition label r hl1 hh =>
    generalize hl : (_ ++ _ : Bytes) = l at h'
    cases h' with
    | @linkDefinition label' r' hl2 hh' =>
      have : label = label' := label_unique hl1 hl2 (by simpa using hl)
      subst this; exact ⟨rfl, rfl⟩
    | @footnote label' r' hl2 =>
      have : label = c! '^' :: label' := label_unique (c := c! ']') hl1 (by simp [hl2]) (by simpa using hl)
      subst this; exact absurd rfl hh
    | _ => exfalso; revert hg; simp [group]
  | @footnote label r hl1 =>
    generalize hl : (_ ++ _ : Bytes) = l at h'
    cases h' with
    | @footnote label' r' hl2 =>
      have : label = label' := label_unique hl1 hl2 (by simpa using hl)
      subst this; exact ⟨rfl, rfl⟩
    | @linkDefinition label' r' hl2 hh =>
      have : c! '^' :: label = label' := label_unique (c := c! ']') (by simp [hl1]) hl2 (by simpa using hl)
      subst this; exact absurd rfl hh
    | _ => exfalso; revert hg; simp [group]
  | thematicBreak hc hb =>
    generalize hl : _ :: _ = l at h'
    cases h' with
    | thematicBreak _ _ => exact ⟨rfl, rfl⟩
    | unordered _ _ hnb _ => rw [hl] at hb; exact absurd hb hnb
    | task _ _ _ => exact absurd (by rw [hl]; simp) (break_no_bracket hb)
    | _ => exfalso; revert hg; simp [group]
  | unordered hb hsp hnb hnt =>
    generalize hl : _ :: _ = l at h'
    cases h' with
    | thematicBreak _ hb' => rw [hl] at hnb; exact absurd hb' hnb
    | unordered _ _ _ _ => simp at hl; rw [hl.1]; exact ⟨rfl, rfl⟩
    | task _ hx hw => simp at hl; exact absurd hw (hnt _ _ (by simpa using hl.2) hx)
    | _ => exfalso; revert hg; simp [group]
  | task hb hx hw =>
    generalize hl : (_ ++ _ : Bytes) = l at h'
    cases h' with
    | thematicBreak _ hb' => exact absurd (by rw [← hl]; simp) (break_no_bracket hb')
    | unordered _ _ _ hnt => simp at hl; exact absurd hw (hnt _ _ (by simpa using hl.2.symm) hx)
    | task _ _ _ => simp at hl; rw [hl.1, hl.2.1]; exact ⟨rfl, rfl⟩
    | _ => exfalso; revert hg; simp [group]
  | ordered hn hd hok hv hw =>
    generalize hl : (_ ++ _ : Bytes) = l at h'
    cases h' with
    | ordered hn' hd' hok' hv' hw' =>
      obtain ⟨rfl, rfl, rfl⟩ := ordered_unique hn hn' hd hd' hok hok' hl
      rw [← hv'] at hv
      have := Int.ofNat.inj hv
      subst this
      exact ⟨rfl, rfl⟩
    | _ => exfalso; revert hg; simp [group]

end Jotdown.Block
