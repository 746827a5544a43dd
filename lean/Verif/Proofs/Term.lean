import Verif.Proofs.Cont
/-! # The term of a description list: helper lemmas -/
namespace Jotdown.Block
open Jotdown

theorem set_mid {α : Type} (A : List α) (e e' : α) (B : List α) {i : Nat} (hi : i = A.length) :
    (A ++ e :: B).set i e' = A ++ e' :: B := by
  subst hi
  rw [List.set_append_right _ _ (Nat.le_refl _)]; simp

theorem idx_mid {α : Type} (A : List α) (e : α) (B : List α) {i : Nat} (hi : i = A.length) :
    idx (A ++ e :: B) i = .ok e := by
  subst hi; exact idx_append A e B

theorem drop_mid {α : Type} (A B : List α) {i : Nat} (hi : i = A.length) : (A ++ B).drop i = B := by
  subst hi; simp

theorem take_mid {α : Type} (A B : List α) {i : Nat} (hi : i = A.length) : (A ++ B).take i = A := by
  subst hi; simp

theorem get_mid {α : Type} (A B : List α) {i : Nat} (hi : i = A.length) : (A ++ B)[i]? = B.head? := by
  subst hi
  rw [List.getElem?_append_right (Nat.le_refl _), Nat.sub_self, List.head?_eq_getElem?]

theorem position_append (f : Event → Bool) (A : List Event) (x : Event) (B : List Event) (h : ∀ a ∈ A, f a = false)
    (hx : f x = true) : position f (A ++ x :: B) = some A.length := by
  induction A with
  | nil => simp [position, hx]
  | cons a A ih =>
    rw [List.cons_append, position, h a (by simp)]
    simp only [Bool.false_eq_true, if_false]
    rw [ih (fun b hb => h b (by simp [hb]))]; rfl

theorem position_none (f : Event → Bool) (A : List Event) (h : ∀ a ∈ A, f a = false) : position f A = none := by
  induction A with
  | nil => rfl
  | cons a A ih =>
    rw [position, h a (by simp)]
    simp only [Bool.false_eq_true, if_false]
    rw [ih (fun b hb => h b (by simp [hb]))]; rfl

/-- Start of the details. -/
def detailPos (x : Event) (B D : List Event) : Nat :=
  match D with
  | d :: _ => d.span.start
  | [] => ((x :: B).getLast (by simp)).span.stop

/-- Effect of the conversion of a paragraph into the term. -/
theorem convertTerm_eq (p : TP) (c : Container) (A : List Event) (d1 d2 c0 e : Event) (inl : List Event) (x : Event)
    (B D : List Event) (o : Nat) (hev : p.events = A ++ d1 :: d2 :: c0 :: e :: (inl ++ x :: (B ++ D)))
    (he : e.kind = .enter (.leaf .paragraph)) (hinl : ∀ a ∈ inl, a.kind = .inline) (hx : x.kind = .exit (.leaf .paragraph))
    (hB : ∀ a ∈ B, a.kind = .atom .blankline) (hD : ∀ d rest, D = d :: rest → d.kind ≠ .atom .blankline)
    (ho : o < p.open_.length) :
    p.convertTerm c A.length (A.length + 2) o = .ok { p with
      events := A ++ { d1 with kind := .stale } :: { d2 with kind := .stale } :: ⟨.enter (.leaf .descriptionTerm), d1.span⟩ ::
        (inl ++ ⟨.exit (.leaf .descriptionTerm), x.span⟩ ::
          (B ++ ⟨.enter (.container c), ⟨detailPos x B D, detailPos x B D⟩⟩ :: D))
      open_ := p.open_.set (p.open_.length - 1 - o) (A.length + 4 + inl.length + B.length) } := by
  unfold TP.convertTerm
  have e1 : p.events = (A ++ [d1, d2, c0]) ++ e :: (inl ++ x :: (B ++ D)) := by rw [hev]; simp
  have hl3 : A.length + 2 + 1 = (A ++ [d1, d2, c0]).length := by simp
  simp only
  rw [e1, get_mid _ _ hl3]
  simp only [List.head?_cons, he, if_true]
  rw [set_mid _ _ _ _ hl3]
  have e2 : (A ++ [d1, d2, c0]) ++ ({ e with kind := .enter (.leaf .descriptionTerm) } : Event) :: (inl ++ x :: (B ++ D)) =
    (A ++ [d1, d2, c0] ++ [({ e with kind := .enter (.leaf .descriptionTerm) } : Event)]) ++ (inl ++ x :: (B ++ D)) := by simp
  rw [e2, drop_mid _ _ (by simp)]
  rw [position_append _ inl x (B ++ D) (fun a ha => by simp [hinl a ha]) (by simp [hx])]
  simp only
  have e3 : (A ++ [d1, d2, c0] ++ [({ e with kind := .enter (.leaf .descriptionTerm) } : Event)]) ++ (inl ++ x :: (B ++ D)) =
    (A ++ [d1, d2, c0] ++ [({ e with kind := .enter (.leaf .descriptionTerm) } : Event)] ++ inl) ++ x :: (B ++ D) := by simp
  rw [e3, idx_mid _ _ _ (by simp; omega)]
  simp only [Bind.bind, Except.bind]
  rw [set_mid _ _ _ _ (by simp; omega)]
  have e4 : (A ++ [d1, d2, c0] ++ [({ e with kind := .enter (.leaf .descriptionTerm) } : Event)] ++ inl) ++
      (⟨.exit (.leaf .descriptionTerm), x.span⟩ : Event) :: (B ++ D) =
    A ++ d1 :: (d2 :: c0 :: { e with kind := .enter (.leaf .descriptionTerm) } :: (inl ++ (⟨.exit (.leaf .descriptionTerm), x.span⟩ : Event) :: (B ++ D))) := by simp
  rw [e4, idx_mid _ _ _ rfl]
  simp only [Bind.bind, Except.bind]
  rw [set_mid _ _ _ _ rfl]
  have e5 : A ++ ({ d1 with kind := .stale } : Event) :: (d2 :: c0 :: { e with kind := .enter (.leaf .descriptionTerm) } :: (inl ++ (⟨.exit (.leaf .descriptionTerm), x.span⟩ : Event) :: (B ++ D))) =
    (A ++ [{ d1 with kind := .stale }]) ++ d2 :: (c0 :: { e with kind := .enter (.leaf .descriptionTerm) } :: (inl ++ (⟨.exit (.leaf .descriptionTerm), x.span⟩ : Event) :: (B ++ D))) := by simp
  rw [e5, idx_mid _ _ _ (by simp)]
  simp only [Bind.bind, Except.bind]
  rw [set_mid _ _ _ _ (by simp)]
  have e6 : (A ++ [({ d1 with kind := .stale } : Event)]) ++ ({ d2 with kind := .stale } : Event) :: (c0 :: { e with kind := .enter (.leaf .descriptionTerm) } :: (inl ++ (⟨.exit (.leaf .descriptionTerm), x.span⟩ : Event) :: (B ++ D))) =
    (A ++ [{ d1 with kind := .stale }, { d2 with kind := .stale }, c0]) ++ { e with kind := .enter (.leaf .descriptionTerm) } :: (inl ++ (⟨.exit (.leaf .descriptionTerm), x.span⟩ : Event) :: (B ++ D)) := by simp
  rw [e6, idx_mid _ _ _ (by simp)]
  simp only [Bind.bind, Except.bind]
  rw [set_mid _ _ _ _ (by simp)]
  have e7 : (A ++ [({ d1 with kind := .stale } : Event), { d2 with kind := .stale }, c0]) ++ (⟨.enter (.leaf .descriptionTerm), d1.span⟩ : Event) :: (inl ++ (⟨.exit (.leaf .descriptionTerm), x.span⟩ : Event) :: (B ++ D)) =
    (A ++ [{ d1 with kind := .stale }, { d2 with kind := .stale }, c0] ++ (⟨.enter (.leaf .descriptionTerm), d1.span⟩ : Event) :: (inl ++ [(⟨.exit (.leaf .descriptionTerm), x.span⟩ : Event)])) ++ (B ++ D) := by simp
  rw [e7]
  have hfirst : firstDetailOf (A ++ [({ d1 with kind := .stale } : Event), { d2 with kind := .stale }, c0] ++ (⟨.enter (.leaf .descriptionTerm), d1.span⟩ : Event) :: (inl ++ [(⟨.exit (.leaf .descriptionTerm), x.span⟩ : Event)]) ++ (B ++ D))
      (A.length + 2 + 1 + 1 + inl.length) = A.length + 5 + inl.length + B.length := by
    unfold firstDetailOf
    rw [drop_mid _ _ (by simp; omega)]
    cases D with
    | nil =>
      rw [position_none _ _ (by intro a ha; simp [hB a (by simpa using ha)])]
      simp; omega
    | cons d D =>
      rw [position_append _ B d D (fun a ha => by simp [hB a ha]) (by simpa using hD d D rfl)]
      simp only; omega
  rw [hfirst]
  have e8 : (A ++ [({ d1 with kind := .stale } : Event), { d2 with kind := .stale }, c0] ++ (⟨.enter (.leaf .descriptionTerm), d1.span⟩ : Event) :: (inl ++ [(⟨.exit (.leaf .descriptionTerm), x.span⟩ : Event)])) ++ (B ++ D) =
     (A ++ [({ d1 with kind := .stale } : Event), { d2 with kind := .stale }, c0] ++ (⟨.enter (.leaf .descriptionTerm), d1.span⟩ : Event) :: (inl ++ [(⟨.exit (.leaf .descriptionTerm), x.span⟩ : Event)]) ++ B) ++ D := by simp
  rw [e8]
  have hpos : detailPosOf (A ++ [({ d1 with kind := .stale } : Event), { d2 with kind := .stale }, c0] ++ (⟨.enter (.leaf .descriptionTerm), d1.span⟩ : Event) :: (inl ++ [(⟨.exit (.leaf .descriptionTerm), x.span⟩ : Event)]) ++ B ++ D)
      (A.length + 5 + inl.length + B.length) = .ok (detailPos x B D) := by
    unfold detailPosOf
    rw [get_mid _ _ (by simp; omega)]
    cases D with
    | cons d D => rfl
    | nil =>
      simp only [List.head?_nil, List.append_nil, detailPos]
      rcases List.eq_nil_or_concat B with h | ⟨B', b, rfl⟩
      · subst h
        simp [List.getLast?_append, List.getLast?_cons]
      · have hq : x :: B'.concat b = (x :: B') ++ [b] := by simp
        have hg : ((x :: B'.concat b).getLast (by simp)) = b := by
          simp only [hq]; exact getLast_snoc _ _ _
        rw [hg, List.concat_eq_append, ← List.append_assoc, List.getLast?_append]
        rfl
  rw [hpos]
  simp only [ho, if_true]
  have t3 : ((A ++ [({ d1 with kind := .stale } : Event), { d2 with kind := .stale }, c0] ++ (⟨.enter (.leaf .descriptionTerm), d1.span⟩ : Event) :: (inl ++ [(⟨.exit (.leaf .descriptionTerm), x.span⟩ : Event)]) ++ B) ++ D).drop (A.length + 5 + inl.length + B.length) = D :=
    drop_mid _ _ (by simp; omega)
  have e9 : (A ++ [({ d1 with kind := .stale } : Event), { d2 with kind := .stale }, c0] ++ (⟨.enter (.leaf .descriptionTerm), d1.span⟩ : Event) :: (inl ++ [(⟨.exit (.leaf .descriptionTerm), x.span⟩ : Event)]) ++ B) ++ D =
    (A ++ [({ d1 with kind := .stale } : Event), { d2 with kind := .stale }]) ++ (c0 :: (⟨.enter (.leaf .descriptionTerm), d1.span⟩ : Event) :: (inl ++ [(⟨.exit (.leaf .descriptionTerm), x.span⟩ : Event)]) ++ B ++ D) := by simp
  have e10 : (A ++ [({ d1 with kind := .stale } : Event), { d2 with kind := .stale }, c0] ++ (⟨.enter (.leaf .descriptionTerm), d1.span⟩ : Event) :: (inl ++ [(⟨.exit (.leaf .descriptionTerm), x.span⟩ : Event)]) ++ B) ++ D =
    (A ++ [({ d1 with kind := .stale } : Event), { d2 with kind := .stale }, c0]) ++ (((⟨.enter (.leaf .descriptionTerm), d1.span⟩ : Event) :: (inl ++ [(⟨.exit (.leaf .descriptionTerm), x.span⟩ : Event)]) ++ B) ++ D) := by simp
  have t1 : ((A ++ [({ d1 with kind := .stale } : Event), { d2 with kind := .stale }, c0] ++ (⟨.enter (.leaf .descriptionTerm), d1.span⟩ : Event) :: (inl ++ [(⟨.exit (.leaf .descriptionTerm), x.span⟩ : Event)]) ++ B) ++ D).take (A.length + 2) =
      A ++ [({ d1 with kind := .stale } : Event), { d2 with kind := .stale }] := by
    rw [e9, take_mid _ _ (by simp)]
  have t2 : (((A ++ [({ d1 with kind := .stale } : Event), { d2 with kind := .stale }, c0] ++ (⟨.enter (.leaf .descriptionTerm), d1.span⟩ : Event) :: (inl ++ [(⟨.exit (.leaf .descriptionTerm), x.span⟩ : Event)]) ++ B) ++ D).drop (A.length + 2 + 1)).take (A.length + 5 + inl.length + B.length - (A.length + 2 + 1)) =
      (⟨.enter (.leaf .descriptionTerm), d1.span⟩ : Event) :: (inl ++ [(⟨.exit (.leaf .descriptionTerm), x.span⟩ : Event)]) ++ B := by
    rw [e10, drop_mid _ _ (by simp), take_mid _ _ (by simp; omega)]
  rw [t1, t2, t3]
  have hn : A.length + 5 + inl.length + B.length - 1 = A.length + 4 + inl.length + B.length := by omega
  rw [hn]
  simp [Pure.pure, Except.pure]

end Jotdown.Block
