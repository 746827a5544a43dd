import Verif.Proofs.Prepare
/-! # Helper lemmas: the state of the block parser between two blocks -/
namespace Jotdown.Block
open Jotdown

/-- Bound for the depth of nested nodes. -/
def maxDepth (src : Bytes) : Nat := 4 * src.length + 1

/-- Panics that remain possible: more than 65535 `#`s, or list nesting deeper than 65535, neither of
which is possible for short sources. -/
def Allowed (src : Bytes) (e : Panic) : Prop :=
  (e = .level ∧ ∃ u v, src = u ++ List.replicate 65536 (c! '#') ++ v) ∨ (e = .depth ∧ 65536 ≤ maxDepth src)

theorem Sat.lift {src : Bytes} {α : Type} {x : R α} {Q : α → Prop} (h : Sat Never x Q) : Sat (Allowed src) x Q :=
  h.weaken (fun _ h => absurd h (by simp))

/-- `E'` is `E` except for the looseness of the open lists. -/
def Tight (lists : List OpenList) (E E' : List Event) : Prop :=
  E'.length = E.length ∧ ∀ i : Nat, E'[i]? = E[i]? ∨ ((∃ l ∈ lists, l.event = i) ∧
    ∃ ty t t' sp, E[i]? = some ⟨.enter (.container (.list ty t)), sp⟩ ∧
      E'[i]? = some ⟨.enter (.container (.list ty t')), sp⟩)

theorem Tight.refl (lists : List OpenList) (E : List Event) : Tight lists E E := ⟨rfl, fun _ => Or.inl rfl⟩

theorem Tight.trans {lists : List OpenList} {A B C : List Event} (h : Tight lists A B) (h2 : Tight lists B C) :
    Tight lists A C := by
  refine ⟨h2.1.trans h.1, fun i => ?_⟩
  rcases h.2 i with h3 | ⟨hl, ty, t, t', sp, h3, h4⟩
  · rcases h2.2 i with h5 | ⟨hl, ty, t, t', sp, h5, h6⟩
    · exact Or.inl (h5.trans h3)
    · exact Or.inr ⟨hl, ty, t, t', sp, h3 ▸ h5, h6⟩
  · rcases h2.2 i with h5 | ⟨_, ty2, s, s', sp2, h5, h6⟩
    · exact Or.inr ⟨hl, ty, t, t', sp, h3, h5.trans h4⟩
    · rw [h4] at h5
      simp at h5
      obtain ⟨⟨rfl, rfl⟩, rfl⟩ := h5
      exact Or.inr ⟨hl, ty, t, s', sp, h3, h6⟩

theorem Tight.nil {A B : List Event} (h : Tight [] A B) : B = A := by
  apply List.ext_getElem?
  intro i
  rcases h.2 i with h | ⟨⟨l, hl, _⟩, _⟩
  · exact h
  · simp at hl

theorem Tight.split {lists : List OpenList} {A B X : List Event} (h : Tight lists (A ++ B) X)
    (hl : ∀ l ∈ lists, l.event < A.length) : ∃ A', X = A' ++ B ∧ Tight lists A A' := by
  have hlen := h.1
  simp only [List.length_append] at hlen
  refine ⟨X.take A.length, ?_, ?_, ?_⟩
  · have : X.drop A.length = B := by
      apply List.ext_getElem?
      intro i
      rw [List.getElem?_drop]
      rcases h.2 (A.length + i) with h1 | ⟨⟨l, hlm, he⟩, _⟩
      · rw [h1, List.getElem?_append_right (by omega)]
        congr 1; omega
      · have := hl l hlm; omega
    conv => lhs; rw [← List.take_append_drop A.length X, this]
  · simp; omega
  · intro i
    by_cases hi : i < A.length
    · rw [List.getElem?_take_of_lt hi]
      have := h.2 i
      rw [List.getElem?_append_left hi] at this
      exact this
    · left
      rw [List.getElem?_eq_none (by simp; omega), List.getElem?_eq_none (by omega)]

theorem Tight.append {lists : List OpenList} {A A' : List Event} (h : Tight lists A A') (B : List Event) :
    Tight lists (A ++ B) (A' ++ B) := by
  refine ⟨by simp [h.1], fun i => ?_⟩
  by_cases hi : i < A.length
  · rw [List.getElem?_append_left hi, List.getElem?_append_left (by rw [h.1]; exact hi)]
    exact h.2 i
  · left
    rw [List.getElem?_append_right (by rw [h.1]; omega), List.getElem?_append_right (by omega), h.1]

/-- Split off the Enter event of the innermost open list. -/
theorem Tight.split_list {l : OpenList} {lists : List OpenList} {A : List Event} {e : Event} {B X : List Event}
    (h : Tight (l :: lists) (A ++ e :: B) X) (he : l.event = A.length) (hl : ∀ m ∈ lists, m.event < A.length) :
    ∃ A' e', X = A' ++ e' :: B ∧ Tight lists A A' ∧ (e' = e ∨ ∃ ty t t', e.kind = .enter (.container (.list ty t)) ∧
      e' = ⟨.enter (.container (.list ty t')), e.span⟩) := by
  have h0 : A ++ e :: B = (A ++ [e]) ++ B := by simp
  rw [h0] at h
  obtain ⟨Y, rfl, hY⟩ := h.split (by
    intro m hm
    rcases List.mem_cons.1 hm with rfl | hm
    · simp; omega
    · have := hl m hm; simp; omega)
  have hlen := hY.1
  rcases List.eq_nil_or_concat Y with h1 | ⟨A', e', rfl⟩
  · subst h1; simp at hlen
  · rw [List.concat_eq_append] at hY hlen ⊢
    simp at hlen
    refine ⟨A', e', by simp, ⟨hlen, ?_⟩, ?_⟩
    · intro i
      by_cases hi : i < A.length
      · have := hY.2 i
        rw [List.getElem?_append_left (by omega), List.getElem?_append_left hi] at this
        rcases this with h2 | ⟨⟨m, hm, hme⟩, h3⟩
        · exact Or.inl h2
        · rcases List.mem_cons.1 hm with rfl | hm
          · omega
          · exact Or.inr ⟨⟨m, hm, hme⟩, h3⟩
      · left
        rw [List.getElem?_eq_none (by omega), List.getElem?_eq_none (by omega)]
    · have := hY.2 A.length
      rw [List.getElem?_append_right (by omega), List.getElem?_append_right (by omega)] at this
      simp only [hlen, Nat.sub_self, List.getElem?_cons_zero] at this
      rcases this with h2 | ⟨_, ty, t, t', sp, h2, h3⟩
      · left; simpa using h2
      · right
        simp at h2 h3
        subst h2
        exact ⟨ty, t, t', rfl, h3⟩

theorem Tight.length {lists : List OpenList} {A B : List Event} (h : Tight lists A B) : B.length = A.length := h.1

/-! ## Level -/

/-- No list is open on this level. -/
structure LvlA (src : Bytes) (cx : Cx) (secs : List Nat) (E0 : List Event) (st : List Nat) (lists : List OpenList) (lo hi : Nat)
    (p : TP) : Prop where
  cx_ne : cx ≠ .list
  src_eq : p.src = src
  secs_eq : p.openSections = secs
  open_eq : p.open_ = st
  lists_eq : p.openLists = lists
  ev : ∃ E F, Tight lists E0 E ∧ p.events = E ++ F ∧ Forest src cx lo F hi

/-- The type of an open list is what is written in its first item. -/
def ListAt (src : Bytes) (sp : Span) (l : OpenList) : Prop :=
  TyOk l.tyStart ∧ NodeOk src sp (.container (.list l.tyStart true))

theorem nodeOk_tight {src : Bytes} {sp : Span} {ty : ListType} {t t' : Bool} (h : NodeOk src sp (.container (.list ty t))) :
    NodeOk src sp (.container (.list ty t')) := by
  cases ty <;> exact h

/-- A list is open on this level. -/
structure LvlB (src : Bytes) (cx : Cx) (secs : List Nat) (E0 : List Event) (st : List Nat) (lists : List OpenList) (lo hi : Nat)
    (p : TP) : Prop where
  cx_ne : cx ≠ .list
  src_eq : p.src = src
  secs_eq : p.openSections = secs
  ev : ∃ E F e G l ty t m, Tight lists E0 E ∧ p.events = E ++ F ++ e :: G ∧ p.open_ = (E ++ F).length :: st ∧
    p.openLists = l :: lists ∧ l.event = (E ++ F).length ∧ l.depth = st.length + 1 ∧ ListAt src e.span l ∧ TyOk l.tyPrev ∧
    Enters src m e (.container (.list ty t)) ∧ Forest src cx lo F m ∧ Forest src .list e.span.stop G hi

def Lvl (src : Bytes) (cx : Cx) (secs : List Nat) (E0 : List Event) (st : List Nat) (lists : List OpenList) (lo hi : Nat)
    (p : TP) : Prop := LvlA src cx secs E0 st lists lo hi p ∨ LvlB src cx secs E0 st lists lo hi p

/-- The lists that are open outside. -/
def CtxOk (E0 : List Event) (st : List Nat) (lists : List OpenList) : Prop :=
  ∀ l ∈ lists, l.depth < st.length ∧ l.event < E0.length

section
variable {src : Bytes} {cx : Cx} {secs : List Nat} {E0 : List Event} {st : List Nat} {lists : List OpenList} {lo hi : Nat} {p : TP}

/-- The state depends only on some fields. -/
theorem LvlA.congr {p' : TP} (h : LvlA src cx secs E0 st lists lo hi p) (h1 : p'.src = p.src)
    (h2 : p'.openSections = p.openSections) (h3 : p'.open_ = p.open_) (h4 : p'.openLists = p.openLists)
    (h5 : p'.events = p.events) : LvlA src cx secs E0 st lists lo hi p' :=
  ⟨h.cx_ne, h1.trans h.src_eq, h2.trans h.secs_eq, h3.trans h.open_eq, h4.trans h.lists_eq, by rw [h5]; exact h.ev⟩

theorem LvlB.congr {p' : TP} (h : LvlB src cx secs E0 st lists lo hi p) (h1 : p'.src = p.src)
    (h2 : p'.openSections = p.openSections) (h3 : p'.open_ = p.open_) (h4 : p'.openLists = p.openLists)
    (h5 : p'.events = p.events) : LvlB src cx secs E0 st lists lo hi p' :=
  ⟨h.cx_ne, h1.trans h.src_eq, h2.trans h.secs_eq, by rw [h3, h4, h5]; exact h.ev⟩

theorem Lvl.congr {p' : TP} (h : Lvl src cx secs E0 st lists lo hi p) (h1 : p'.src = p.src)
    (h2 : p'.openSections = p.openSections) (h3 : p'.open_ = p.open_) (h4 : p'.openLists = p.openLists)
    (h5 : p'.events = p.events) : Lvl src cx secs E0 st lists lo hi p' :=
  h.imp (·.congr h1 h2 h3 h4 h5) (·.congr h1 h2 h3 h4 h5)

theorem LvlA.mono {hi' : Nat} (h : LvlA src cx secs E0 st lists lo hi p) (hh : hi ≤ hi') :
    LvlA src cx secs E0 st lists lo hi' p := by
  obtain ⟨E, F, h1, h2, h3⟩ := h.ev
  exact ⟨h.cx_ne, h.src_eq, h.secs_eq, h.open_eq, h.lists_eq, E, F, h1, h2, h3.mono (Nat.le_refl _) hh⟩

theorem LvlB.mono {hi' : Nat} (h : LvlB src cx secs E0 st lists lo hi p) (hh : hi ≤ hi') :
    LvlB src cx secs E0 st lists lo hi' p := by
  obtain ⟨E, F, e, G, l, ty, t, m, h1, h2, h3, h4, h5, h6, h7, h8, h9, h10, h11⟩ := h.ev
  exact ⟨h.cx_ne, h.src_eq, h.secs_eq, E, F, e, G, l, ty, t, m, h1, h2, h3, h4, h5, h6, h7, h8, h9, h10,
    h11.mono (Nat.le_refl _) hh⟩

theorem Lvl.mono {hi' : Nat} (h : Lvl src cx secs E0 st lists lo hi p) (hh : hi ≤ hi') :
    Lvl src cx secs E0 st lists lo hi' p := h.imp (·.mono hh) (·.mono hh)

/-- Changing the looseness of open lists. -/
theorem LvlA.retight (h : LvlA src cx secs E0 st lists lo hi p) (hc : CtxOk E0 st lists) {ev : List Event}
    (ht : Tight p.openLists p.events ev) : LvlA src cx secs E0 st lists lo hi { p with events := ev } := by
  obtain ⟨E, F, h1, h2, h3⟩ := h.ev
  rw [h.lists_eq, h2] at ht
  obtain ⟨E', rfl, hE⟩ := ht.split (fun l hl => by have := hc l hl; rw [h1.1]; exact this.2)
  exact ⟨h.cx_ne, h.src_eq, h.secs_eq, h.open_eq, h.lists_eq, E', F, h1.trans hE, rfl, h3⟩

theorem LvlB.retight (h : LvlB src cx secs E0 st lists lo hi p) (hc : CtxOk E0 st lists) {ev : List Event}
    (ht : Tight p.openLists p.events ev) : LvlB src cx secs E0 st lists lo hi { p with events := ev } := by
  obtain ⟨E, F, e, G, l, ty, t, m, h1, h2, h3, h4, h5, h6, h7, h8, h9, h10, h11⟩ := h.ev
  rw [h4, h2] at ht
  obtain ⟨A, e', rfl, hA, he⟩ := ht.split_list h5 (fun l hl => by
    have := hc l hl; rw [List.length_append, h1.1]; omega)
  obtain ⟨E', rfl, hE⟩ := hA.split (fun l hl => by have := hc l hl; rw [h1.1]; exact this.2)
  have hlen : (E' ++ F).length = (E ++ F).length := by simp [hE.1]
  have he2 : ∃ t', Enters src m e' (.container (.list ty t')) ∧ e'.span = e.span := by
    rcases he with rfl | ⟨ty', t', t'', hk, rfl⟩
    · exact ⟨t, h9, rfl⟩
    · rw [h9.kind] at hk
      simp at hk
      obtain ⟨rfl, rfl⟩ := hk
      exact ⟨t'', ⟨rfl, nodeOk_tight h9.node, h9.span, h9.lo⟩, rfl⟩
  obtain ⟨t', he3, he4⟩ := he2
  refine ⟨h.cx_ne, h.src_eq, h.secs_eq, E', F, e', G, l, ty, t', m, h1.trans hE, rfl, ?_, h4, ?_, h6, he4 ▸ h7, h8, he3, h10, ?_⟩
  · simp only [h3, hlen]
  · rw [h5, hlen]
  · rw [he4]; exact h11

theorem Lvl.retight (h : Lvl src cx secs E0 st lists lo hi p) (hc : CtxOk E0 st lists) {ev : List Event}
    (ht : Tight p.openLists p.events ev) : Lvl src cx secs E0 st lists lo hi { p with events := ev } :=
  h.imp (·.retight hc ht) (·.retight hc ht)

/-- Appending complete blocks. -/
theorem LvlA.append {hi' : Nat} {G : List Event} (h : LvlA src cx secs E0 st lists lo hi p) (hG : Forest src cx hi G hi') :
    LvlA src cx secs E0 st lists lo hi' { p with events := p.events ++ G } := by
  obtain ⟨E, F, h1, h2, h3⟩ := h.ev
  exact ⟨h.cx_ne, h.src_eq, h.secs_eq, h.open_eq, h.lists_eq, E, F ++ G, h1, by rw [h2]; simp, h3.append hG⟩

theorem LvlB.append {hi' : Nat} {K : List Event} (h : LvlB src cx secs E0 st lists lo hi p) (hK : Forest src .list hi K hi') :
    LvlB src cx secs E0 st lists lo hi' { p with events := p.events ++ K } := by
  obtain ⟨E, F, e, G, l, ty, t, m, h1, h2, h3, h4, h5, h6, h7, h8, h9, h10, h11⟩ := h.ev
  exact ⟨h.cx_ne, h.src_eq, h.secs_eq, E, F, e, G ++ K, l, ty, t, m, h1, by rw [h2]; simp, h3, h4, h5, h6, h7, h8, h9, h10, h11.append hK⟩

theorem idx_append {α : Type} (A : List α) (e : α) (B : List α) : idx (A ++ e :: B) A.length = .ok e := by
  unfold idx
  rw [List.getElem?_append_right (Nat.le_refl _)]
  simp

/-- Closing the list of this level. -/
theorem LvlB.closeList (h : LvlB src cx secs E0 st lists lo hi p) {pos : Nat} (hpos : hi ≤ pos)
    (hsp : SpanOk src ⟨pos, pos⟩) :
    ∃ l, p.openLists = l :: lists ∧ l.depth = st.length + 1 ∧ p.open_.length = st.length + 1 ∧
      TyOk l.tyStart ∧ TyOk l.tyPrev ∧
      ∀ q : TP, q.src = p.src → q.openSections = p.openSections → q.open_ = p.open_ → q.events = p.events →
        q.openLists = lists →
        Sat Never (q.closeList l pos) (LvlA src cx secs E0 st lists lo pos) := by
  obtain ⟨E, F, e, G, l, ty, t, m, h1, h2, h3, h4, h5, h6, h7, h8, h9, h10, h11⟩ := h.ev
  refine ⟨l, h4, h6, by rw [h3]; simp, h7.1, h8, ?_⟩
  intro q hq1 hq2 hq3 hq4 hq5
  unfold TP.closeList
  rw [hq4, h2, h5, idx_append]
  simp only [Bind.bind, Except.bind, h9.kind]
  have hset : ∀ e', (E ++ F ++ e :: G).set (E ++ F).length e' = E ++ F ++ e' :: G := by
    intro e'
    rw [List.set_append_right _ _ (Nat.le_refl _)]; simp
  rw [hset]
  unfold TP.exit TP.enterNode
  simp only [hq3, h3, idx_append, Bind.bind, Except.bind, pure, Except.pure]
  refine Sat.ok ⟨h.cx_ne, hq1.trans h.src_eq, hq2.trans h.secs_eq, rfl, hq5, E,
    F ++ ⟨.enter (.container (.list l.tyStart (if q.prevLoose = true then true else t))), e.span⟩ :: G ++
      [⟨.exit (.container (.list l.tyStart (if q.prevLoose = true then true else t))), ⟨pos, pos⟩⟩], h1, by simp, ?_⟩
  have hnode := Forest.node (src := src) (cx := cx) (lo := m) (hi := pos)
    (e := ⟨.enter (.container (.list l.tyStart (if q.prevLoose = true then true else t))), e.span⟩)
    (c := .list l.tyStart (if q.prevLoose = true then true else t)) (F := G)
    (x := ⟨.exit (.container (.list l.tyStart (if q.prevLoose = true then true else t))), ⟨pos, pos⟩⟩) (G := [])
    ⟨rfl, nodeOk_tight h7.2, h9.span, h9.lo⟩ ⟨h7.1, by simp [Container.isItem, h.cx_ne]⟩ (h11.mono (Nat.le_refl _) hpos) ⟨rfl, hsp⟩ (.nil (Nat.le_refl _))
  have := h10.append hnode
  simpa using this

end

/-! ## List types -/

theorem u64_ok {n : Nat} (h : n < 2 ^ 64) : u64 n = .ok n := by
  unfold u64 u64Bound; rw [if_pos h]

theorem ambiguity_ok (n : ListNumber) : Sat Never n.ambiguity (fun r => ∀ m, r = some m → m.value < 27) := by
  unfold ListNumber.ambiguity
  have key : ∀ d : Bytes, d ∈ [b! "i", b! "v", b! "x", b! "l", b! "c", b! "d", b! "m"] →
      ∃ v, Numbering.alphaLower.parseNumber d = .ok v ∧ v < 27 := by
    intro d hd
    simp only [List.mem_cons, List.not_mem_nil, or_false] at hd
    rcases hd with rfl | rfl | rfl | rfl | rfl | rfl | rfl
    · exact ⟨9, by decide +kernel, by decide⟩
    · exact ⟨22, by decide +kernel, by decide⟩
    · exact ⟨24, by decide +kernel, by decide⟩
    · exact ⟨12, by decide +kernel, by decide⟩
    · exact ⟨3, by decide +kernel, by decide⟩
    · exact ⟨4, by decide +kernel, by decide⟩
    · exact ⟨13, by decide +kernel, by decide⟩
  have main : ∀ (num : Numbering) (d : Option Bytes), (∀ x, d = some x → x ∈ [b! "i", b! "v", b! "x", b! "l", b! "c", b! "d", b! "m"]) →
      Sat Never (match d with
        | none => (.ok none : R (Option ListNumber))
        | some d => do
          let v ← Numbering.alphaLower.parseNumber d
          pure (some ⟨num, v⟩)) (fun r => ∀ m, r = some m → m.value < 27) := by
    intro num d hd
    cases d with
    | none => exact Sat.ok (by simp)
    | some d =>
      obtain ⟨v, hv, hlt⟩ := key d (hd d rfl)
      simp only [hv, Bind.bind, Except.bind]
      exact Sat.ok (by intro m hm; simp at hm; rw [← hm]; exact hlt)
  have hd : ∀ x, (if n.value = 1 then some (b! "i")
      else if n.value = 5 then some (b! "v")
      else if n.value = 10 then some (b! "x")
      else if n.value = 50 then some (b! "l")
      else if n.value = 100 then some (b! "c")
      else if n.value = 500 then some (b! "d")
      else if n.value = 1000 then some (b! "m")
      else none) = some x → x ∈ [b! "i", b! "v", b! "x", b! "l", b! "c", b! "d", b! "m"] := by
    intro x hx
    repeat' (split at hx)
    all_goals first | (simp at hx; subst hx; simp) | simp at hx
  split
  · exact main _ _ hd
  · exact main _ _ hd
  · exact Sat.ok (by simp)

theorem ListType.continues_ok {a b : ListType} (ha : TyOk a) (hb : TyOk b) :
    Sat Never (a.continues b) (fun r => ∀ x y, r = some (x, y) → TyOk x ∧ TyOk y) := by
  have hab : Sat Never (.ok (some (a, b)) : R (Option (ListType × ListType)))
      (fun r => ∀ x y, r = some (x, y) → TyOk x ∧ TyOk y) :=
    Sat.ok (by intro x y h; simp at h; obtain ⟨rfl, rfl⟩ := h; exact ⟨ha, hb⟩)
  have hnone : Sat Never (.ok none : R (Option (ListType × ListType)))
      (fun r => ∀ x y, r = some (x, y) → TyOk x ∧ TyOk y) := Sat.ok (by simp)
  unfold ListType.continues
  split
  · exact hab
  · cases a <;> cases b <;> simp only <;> try exact hnone
    rename_i n0 s0 n1 s1 _
    split
    · exact hab
    · split
      · refine Sat.bind (ambiguity_ok n0) ?_
        intro a0 h0
        cases a0 with
        | some na0 =>
          have hv := h0 na0 rfl
          simp only
          split
          · rw [u64_ok (by omega)]
            simp only [Bind.bind, Except.bind]
            refine Sat.ok ?_
            intro x y h
            split at h
            · simp at h; obtain ⟨rfl, rfl⟩ := h
              refine ⟨?_, hb⟩
              show na0.value < 10 ^ 19
              omega
            · simp at h
          · exact hnone
        | none =>
          simp only
          refine Sat.bind (ambiguity_ok n1) ?_
          intro a1 h1
          cases a1 with
          | some na1 =>
            have hv := h1 na1 rfl
            simp only
            split
            · have h3 : n0.value < 10 ^ 19 := ha
              rw [u64_ok (by omega)]
              simp only [Bind.bind, Except.bind]
              refine Sat.ok ?_
              intro x y h
              split at h
              · simp at h; obtain ⟨rfl, rfl⟩ := h
                refine ⟨ha, ?_⟩
                show na1.value < 10 ^ 19
                omega
              · simp at h
            · exact hnone
          | none => exact hnone
      · exact hnone

end Jotdown.Block
