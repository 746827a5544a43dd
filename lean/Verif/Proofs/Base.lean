import Verif.Spec.Utf8
/-! # Helper lemmas: panics, UTF-8 -/
namespace Jotdown

/-- `x` does not panic except as allowed by `A`, and its result satisfies `Q`. -/
def Sat {α : Type} (A : Panic → Prop) (x : R α) (Q : α → Prop) : Prop :=
  match x with
  | .ok a => Q a
  | .error e => A e

instance {ε α : Type} [DecidableEq ε] [DecidableEq α] : DecidableEq (Except ε α) := fun a b =>
  match a, b with
  | .ok x, .ok y => if h : x = y then isTrue (by rw [h]) else isFalse (fun e => h (by cases e; rfl))
  | .error x, .error y => if h : x = y then isTrue (by rw [h]) else isFalse (fun e => h (by cases e; rfl))
  | .ok _, .error _ => isFalse (fun e => by cases e)
  | .error _, .ok _ => isFalse (fun e => by cases e)

/-- No panic allowed. -/
abbrev Never : Panic → Prop := fun _ => False

theorem Sat.pure {α : Type} {A : Panic → Prop} {a : α} {Q : α → Prop} (h : Q a) :
    Sat A (Pure.pure a : R α) Q := h

theorem Sat.ok {α : Type} {A : Panic → Prop} {a : α} {Q : α → Prop} (h : Q a) :
    Sat A (.ok a : R α) Q := h

theorem Sat.error {α : Type} {A : Panic → Prop} {e : Panic} {Q : α → Prop} (h : A e) :
    Sat A (.error e : R α) Q := h

theorem Sat.bind {α β : Type} {A : Panic → Prop} {x : R α} {f : α → R β} {P : α → Prop}
    {Q : β → Prop} (h : Sat A x P) (hf : ∀ a, P a → Sat A (f a) Q) : Sat A (x >>= f) Q := by
  cases x with
  | ok a => exact hf a h
  | error e => exact h

theorem Sat.mono {α : Type} {A : Panic → Prop} {x : R α} {P Q : α → Prop}
    (h : Sat A x P) (hpq : ∀ a, P a → Q a) : Sat A x Q := by
  cases x with
  | ok a => exact hpq a h
  | error e => exact h

theorem Sat.weaken {α : Type} {A B : Panic → Prop} {x : R α} {P : α → Prop}
    (h : Sat A x P) (hab : ∀ e, A e → B e) : Sat B x P := by
  cases x with
  | ok a => exact h
  | error e => exact hab e h

theorem Sat.and {α : Type} {A : Panic → Prop} {x : R α} {P Q : α → Prop}
    (h : Sat A x P) (h' : Sat A x Q) : Sat A x (fun a => P a ∧ Q a) := by
  cases x with
  | ok a => exact ⟨h, h'⟩
  | error e => exact h

theorem Sat.of_ok {α : Type} {A : Panic → Prop} {x : R α} {P : α → Prop} {a : α}
    (h : Sat A x P) (hx : x = .ok a) : P a := by subst hx; exact h

theorem Sat.exists_ok {α : Type} {x : R α} {P : α → Prop} (h : Sat Never x P) :
    ∃ a, x = .ok a ∧ P a := by
  cases x with
  | ok a => exact ⟨a, rfl, h⟩
  | error e => exact absurd h id

theorem bind_ok {α β : Type} {x : R α} {f : α → R β} {b : β} (h : (x >>= f) = .ok b) :
    ∃ a, x = .ok a ∧ f a = .ok b := by
  cases x with
  | ok a => exact ⟨a, rfl, h⟩
  | error e => cases h

/-! ## UTF-8 -/

theorem ofFin {P : UInt8 → Prop} (h : ∀ n : Fin 256, P (UInt8.ofNat n.val)) (x : UInt8) : P x := by
  have := h ⟨x.toNat, x.toNat_lt⟩
  simpa using this

theorem isCont_or80 (x : UInt8) : isCont (x &&& 0x3f ||| 0x80) = true := by
  revert x; apply ofFin; decide +kernel
theorem lead2 (x : UInt8) : 192 ≤ (x &&& 0x1f ||| 0xc0) := by
  revert x; apply ofFin; decide +kernel
theorem lead3 (x : UInt8) : 192 ≤ (x &&& 0x0f ||| 0xe0) := by
  revert x; apply ofFin; decide +kernel
theorem lead4 (x : UInt8) : 192 ≤ (x &&& 0x07 ||| 0xf0) := by
  revert x; apply ofFin; decide +kernel

theorem not_isCont_of_lt {c : UInt8} (h : c < 128) : isCont c = false := by
  simp only [isCont, Bool.and_eq_false_iff, decide_eq_false_iff_not]; left
  exact UInt8.not_le.mpr h
theorem not_isCont_of_ge {c : UInt8} (h : 192 ≤ c) : isCont c = false := by
  simp only [isCont, Bool.and_eq_false_iff, decide_eq_false_iff_not]; right
  rw [UInt8.not_le]; exact UInt8.lt_of_lt_of_le (by decide) h

/-- Shape of an encoded character: a leading byte and continuation bytes. -/
theorem encode_shape (c : Char) : ∃ lead conts, String.utf8EncodeChar c = lead :: conts ∧
    isCont lead = false ∧ (∀ x ∈ conts, isCont x = true) ∧ (lead < 128 → conts = []) := by
  have hs : c.utf8Size = 1 ∨ c.utf8Size = 2 ∨ c.utf8Size = 3 ∨ c.utf8Size = 4 := by
    have h1 := Char.utf8Size_pos c; have h2 := Char.utf8Size_le_four c; omega
  rcases hs with h | h | h | h
  · refine ⟨_, _, String.utf8EncodeChar_eq_singleton h, ?_, by simp, by simp⟩
    apply not_isCont_of_lt
    have : c.val ≤ 127 := by
      exact Char.utf8Size_eq_one_iff.mp h
    rw [UInt8.lt_iff_toNat_lt]
    have h2 : c.val.toNat ≤ 127 := by
      have := UInt32.le_iff_toNat_le.mp this; simpa using this
    simp only [UInt32.toNat_toUInt8]
    show _ < 128
    omega
  · refine ⟨_, _, String.utf8EncodeChar_eq_cons_cons h, not_isCont_of_ge (lead2 _), ?_, ?_⟩
    · intro x hx; simp only [List.mem_singleton] at hx; subst hx; exact isCont_or80 _
    · intro hl; exact absurd (UInt8.lt_of_le_of_lt (lead2 _) hl) (by decide)
  · refine ⟨_, _, String.utf8EncodeChar_eq_cons_cons_cons h, not_isCont_of_ge (lead3 _), ?_, ?_⟩
    · intro x hx; simp only [List.mem_cons, List.not_mem_nil, or_false] at hx
      rcases hx with hx | hx <;> subst hx <;> exact isCont_or80 _
    · intro hl; exact absurd (UInt8.lt_of_le_of_lt (lead3 _) hl) (by decide)
  · refine ⟨_, _, String.utf8EncodeChar_eq_cons_cons_cons_cons h, not_isCont_of_ge (lead4 _), ?_, ?_⟩
    · intro x hx; simp only [List.mem_cons, List.not_mem_nil, or_false] at hx
      rcases hx with hx | hx | hx <;> subst hx <;> exact isCont_or80 _
    · intro hl; exact absurd (UInt8.lt_of_le_of_lt (lead4 _) hl) (by decide)

/-- `s` starts at a character boundary: its first byte is not a continuation byte. -/
def Bd (s : Bytes) : Prop := ∀ c, s.head? = some c → isCont c = false

@[simp] theorem Bd_nil : Bd [] := by simp [Bd]
@[simp] theorem Bd_cons (c : UInt8) (s : Bytes) : Bd (c :: s) ↔ isCont c = false := by simp [Bd]

/-- No continuation byte follows an ASCII byte. -/
def Safe : Bytes → Prop
  | [] => True
  | c :: s => (c < 128 → Bd s) ∧ Safe s

theorem Safe.tail {c : UInt8} {s : Bytes} (h : Safe (c :: s)) : Safe s := h.2

theorem Safe.drop {s : Bytes} (h : Safe s) (n : Nat) : Safe (s.drop n) := by
  induction n generalizing s with
  | zero => simpa
  | succ n ih => cases s with
    | nil => simpa using h
    | cons c s => exact ih h.2

theorem Safe.of_append {a b : Bytes} (h : Safe (a ++ b)) : Safe b := by
  induction a with
  | nil => exact h
  | cons c a ih => exact ih h.2

theorem Bd_append_conts {l b : Bytes} (h : Bd b) (hl : l = [] → Bd b) (hc : ∀ c, l.head? = some c → isCont c = false) : Bd (l ++ b) := by
  cases l with
  | nil => exact h
  | cons c l => simpa using hc c rfl

theorem Safe.append {a b : Bytes} (ha : Safe a) (hb : Safe b) (h : Bd b) : Safe (a ++ b) := by
  induction a with
  | nil => exact hb
  | cons c a ih =>
    refine ⟨fun hc => ?_, ih ha.2⟩
    cases a with
    | nil => exact h
    | cons d a => have := ha.1 hc; simpa using this

theorem Safe.take {s : Bytes} (h : Safe s) (n : Nat) : Safe (s.take n) := by
  induction s generalizing n with
  | nil => simpa using h
  | cons c s ih =>
    cases n with
    | zero => trivial
    | succ n =>
      refine ⟨fun hc => ?_, ih h.2 n⟩
      have := h.1 hc
      cases s with
      | nil => simp
      | cons d s => cases n with
        | zero => simp
        | succ n => simpa using this

theorem utf8_bd_safe {b : Bytes} (h : Utf8 b) : Bd b ∧ Safe b := by
  obtain ⟨l, rfl⟩ := h
  induction l with
  | nil => exact ⟨by simp, trivial⟩
  | cons ch l ih =>
    obtain ⟨lead, conts, he, hlead, hconts, hascii⟩ := encode_shape ch
    simp only [List.flatMap_cons, he]
    have hrest : Safe (conts ++ l.flatMap String.utf8EncodeChar) := by
      clear he hascii
      induction conts with
      | nil => exact ih.2
      | cons c conts ih2 =>
        refine ⟨fun hc => ?_, ih2 (fun x hx => hconts x (List.mem_cons_of_mem _ hx))⟩
        have := hconts c (by simp)
        rw [not_isCont_of_lt hc] at this; exact absurd this (by decide)
    refine ⟨by simpa using hlead, fun hc => ?_, hrest⟩
    rw [hascii hc]; exact ih.1

theorem Utf8.bd {b : Bytes} (h : Utf8 b) : Bd b := (utf8_bd_safe h).1
theorem Utf8.safe {b : Bytes} (h : Utf8 b) : Safe b := (utf8_bd_safe h).2

theorem Utf8.nil : Utf8 [] := ⟨[], rfl⟩
theorem Utf8.append {a b : Bytes} (ha : Utf8 a) (hb : Utf8 b) : Utf8 (a ++ b) := by
  obtain ⟨l, rfl⟩ := ha; obtain ⟨m, rfl⟩ := hb
  exact ⟨l ++ m, by simp⟩

/-- Splitting at a character boundary gives valid UTF-8 on both sides. -/
theorem Utf8.split {b : Bytes} (h : Utf8 b) (n : Nat) (hb : Bd (b.drop n)) :
    Utf8 (b.take n) ∧ Utf8 (b.drop n) := by
  obtain ⟨l, rfl⟩ := h
  induction l generalizing n with
  | nil => simp [Utf8.nil]
  | cons ch l ih =>
    obtain ⟨lead, conts, he, hlead, hconts, hascii⟩ := encode_shape ch
    by_cases h0 : n = 0
    · subst h0; refine ⟨by simpa using Utf8.nil, ⟨ch :: l, by simp⟩⟩
    by_cases hlt : n < (String.utf8EncodeChar ch).length
    · exfalso
      have hn : (conts.drop (n - 1)) ≠ [] := by
        rw [he] at hlt; simp at hlt; intro hh; simp at hh; omega
      obtain ⟨m, rfl⟩ : ∃ m, n = m + 1 := ⟨n - 1, by omega⟩
      simp only [List.flatMap_cons, he, List.cons_append, List.drop_succ_cons] at hb
      rw [he] at hlt; simp at hlt
      rw [List.drop_append_of_le_length (by omega)] at hb
      simp only [Nat.add_sub_cancel] at hn
      cases hd : conts.drop m with
      | nil => exact hn hd
      | cons x xs =>
        rw [hd] at hb; simp at hb
        have hx : x ∈ conts := by
          have : x ∈ conts.drop m := by rw [hd]; simp
          exact List.mem_of_mem_drop this
        rw [hconts x hx] at hb; exact absurd hb (by decide)
    · have hge : (String.utf8EncodeChar ch).length ≤ n := by omega
      simp only [List.flatMap_cons] at hb ⊢
      rw [List.drop_append, List.take_append, List.drop_eq_nil_of_le hge, List.take_of_length_le hge] at *
      simp only [List.nil_append] at *
      have := ih (n - (String.utf8EncodeChar ch).length) hb
      exact ⟨Utf8.append ⟨[ch], by simp⟩ this.1, this.2⟩

theorem utf8_ascii {b : Bytes} (h : ∀ c ∈ b, c < 128) : Utf8 b := by
  induction b with
  | nil => exact Utf8.nil
  | cons c b ih =>
    have hc : c < 128 := h c (by simp)
    have h1 : Utf8 [c] := by
      refine ⟨[Char.ofUInt8 c], ?_⟩
      have hn : c.toNat < 128 := by simpa using UInt8.lt_iff_toNat_lt.mp hc
      have hs : (Char.ofUInt8 c).utf8Size = 1 := by
        rw [Char.utf8Size_eq_one_iff]
        rw [UInt32.le_iff_toNat_le]
        show (Char.ofUInt8 c).val.toNat ≤ 127
        have : (Char.ofUInt8 c).val.toNat = c.toNat := by
          simp [Char.ofUInt8]
        omega
      simp only [List.flatMap_cons, List.flatMap_nil, List.append_nil]
      rw [String.utf8EncodeChar_eq_singleton hs]
      simp [Char.ofUInt8]
    exact Utf8.append h1 (ih (fun x hx => h x (by simp [hx])))

/-- `isBoundary` in terms of `Bd`. -/
theorem isBoundary_of_bd {s : Bytes} {n : Nat} (hn : n ≤ s.length) (h : Bd (s.drop n)) :
    isBoundary s n = true := by
  unfold isBoundary
  cases hs : s[n]? with
  | none => simp at hs; simp; omega
  | some c =>
    have : (s.drop n).head? = some c := by simpa using hs
    simp [h c this]

theorem strSlice_ok {s : Bytes} {a b : Nat} (hab : a ≤ b) (hb : b ≤ s.length)
    (h1 : Bd (s.drop a)) (h2 : Bd (s.drop b)) :
    strSlice s a b = .ok ((s.drop a).take (b - a)) := by
  unfold strSlice
  rw [if_pos ⟨hab, hb, isBoundary_of_bd (by omega) h1, isBoundary_of_bd hb h2⟩]

theorem Bd_of_lt {c : UInt8} {s : Bytes} (h : c < 128) : Bd (c :: s) := by
  simpa using not_isCont_of_lt h

/-! ## Trimming -/

theorem trimEnd_spec (s : Bytes) : ∃ w, s = trimEnd s ++ w ∧ (∀ c ∈ w, isWs c = true) := by
  refine ⟨(s.reverse.takeWhile isWs).reverse, ?_, ?_⟩
  · unfold trimEnd
    rw [← List.reverse_append, List.takeWhile_append_dropWhile, List.reverse_reverse]
  · intro c hc
    rw [List.mem_reverse] at hc
    exact (List.all_eq_true.mp (List.all_takeWhile (l := s.reverse) (p := isWs))) c hc

theorem trimEnd_take (s : Bytes) : trimEnd s = s.take (trimEnd s).length := by
  obtain ⟨w, hw, _⟩ := trimEnd_spec s
  conv => rhs; rw [hw]
  rw [List.take_append, List.take_of_length_le (by simp [← hw])]
  rw [show (trimEnd (trimEnd s ++ w)).length - (trimEnd s).length = 0 by rw [← hw]; omega]
  simp

theorem trimEnd_length_le (s : Bytes) : (trimEnd s).length ≤ s.length := by
  obtain ⟨w, hw, _⟩ := trimEnd_spec s
  have := congrArg List.length hw; simp at this; omega

theorem trimEnd_append_ne {a b : Bytes} (h : trimEnd b ≠ []) : trimEnd (a ++ b) = a ++ trimEnd b := by
  unfold trimEnd at *
  rw [List.reverse_append, List.dropWhile_append]
  have : (List.dropWhile isWs b.reverse).isEmpty = false := by
    cases hd : List.dropWhile isWs b.reverse with
    | nil => rw [hd] at h; simp at h
    | cons => rfl
  rw [this]; simp

theorem trimEnd_concat {a : Bytes} {c : UInt8} (h : isWs c = false) : trimEnd (a ++ [c]) = a ++ [c] := by
  have h1 : trimEnd [c] = [c] := by simp [trimEnd, List.dropWhile, h]
  rw [trimEnd_append_ne (by rw [h1]; simp), h1]

theorem Bd.take {s : Bytes} (h : Bd s) (n : Nat) : Bd (s.take n) := by
  cases s with
  | nil => simpa using h
  | cons c s => cases n with
    | zero => simp
    | succ n => simpa using h

theorem trimEnd_bd_safe {s : Bytes} (h : Bd s) (h' : Safe s) : Bd (trimEnd s) ∧ Safe (trimEnd s) := by
  rw [trimEnd_take]; exact ⟨h.take _, h'.take _⟩

theorem isWs_lt {c : UInt8} (h : isWs c = true) : c < 128 := by
  revert c; apply ofFin; decide +kernel

theorem utf8_trimEnd {s : Bytes} (h : Utf8 s) : Utf8 (trimEnd s) := by
  rw [trimEnd_take]
  refine (h.split _ ?_).1
  obtain ⟨w, hw, hws⟩ := trimEnd_spec s
  have hd : s.drop (trimEnd s).length = w := by
    conv => lhs; arg 2; rw [hw]
    rw [List.drop_left' rfl]
  rw [hd]
  cases w with
  | nil => simp
  | cons c w => exact Bd_of_lt (isWs_lt (hws c (by simp)))

end Jotdown
