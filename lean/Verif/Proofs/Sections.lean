import Verif.Proofs.Blocks
/-! # Sections -/
namespace Jotdown.Block
open Jotdown

/-- A run of block attributes. -/
structure AttrRun (src : Bytes) (lo : Nat) (A : List Event) (hi : Nat) : Prop where
  forest : Forest src .top lo A hi
  attrs : ∀ e ∈ A, e.kind = .atom .attributes

/-- Consecutive complete sections: all levels at least `b`; each at most the level of the previous
one, `u` for the first; `u'` is the level of the last one. -/
inductive Sections (src : Bytes) : Nat → Nat → Nat → Nat → List Event → Nat → Prop
  | nil {b u lo hi} : lo ≤ hi → Sections src b u u lo [] hi
  | cons {b u u' u'' lo m1 m2 m3 hi n pos A e H F S x R} : AttrRun src lo A m1 →
      Enters src m1 e (.container (.section pos)) → pos = e.span.start % 4294967296 → b ≤ n → n ≤ u →
      LeafSeg src (.heading n true pos) e.span.stop H m2 → Forest src .top m2 F m3 →
      Sections src (n + 1) 65535 u'' m3 S x.span.start → Exits src x (.container (.section pos)) →
      Sections src b n u' x.span.stop R hi →
      Sections src b u u' lo (A ++ e :: H ++ F ++ S ++ x :: R) hi

theorem LeafSeg.le {src : Bytes} {l : Leaf} {lo hi : Nat} {es : List Event} (h : LeafSeg src l lo es hi) : lo ≤ hi := by
  cases h with
  | mk a b c d => have := a.lo; have := a.span.le; have := b.le; have := c.span.le; omega

theorem Sections.le {src : Bytes} {b u u' lo hi : Nat} {es : List Event} (h : Sections src b u u' lo es hi) : lo ≤ hi := by
  induction h with
  | nil h => exact h
  | cons a e _ _ _ h f _ x _ ih1 ih2 =>
    have := a.forest.le; have := e.lo; have := e.span.le; have := h.le; have := f.le; have := x.span.le
    omega

theorem Sections.mono {src : Bytes} {b u u' lo lo' hi hi' : Nat} {es : List Event} (h : Sections src b u u' lo es hi)
    (h1 : lo' ≤ lo) (h2 : hi ≤ hi') : Sections src b u u' lo' es hi' := by
  induction h generalizing lo' with
  | nil h => exact .nil (by omega)
  | cons a e p q r h f s x _ ih1 ih2 =>
    exact .cons ⟨a.forest.mono h1 (Nat.le_refl _), a.attrs⟩ e p q r h f s x (ih2 (Nat.le_refl _) h2)

theorem Sections.append {src : Bytes} {b u v w lo mid hi : Nat} {S T : List Event} (h : Sections src b u v lo S mid)
    (h2 : Sections src b v w mid T hi) : Sections src b u w lo (S ++ T) hi := by
  induction h with
  | nil h => exact h2.mono h (Nat.le_refl _)
  | cons a e p q r h f s x _ ih1 ih2 =>
    have := Sections.cons a e p q r h f s x (ih2 h2)
    simpa using this

/-- Lower bound for the levels of subsections. -/
def lowest : List Nat → Nat
  | [] => 0
  | l :: _ => l + 1

/-- The events up to the heading of the innermost open section. -/
inductive OpenDoc (src : Bytes) : List Nat → List Nat → List Event → Nat → Prop
  | doc {e} : e = ⟨.enter (.container .document), ⟨0, 0⟩⟩ → OpenDoc src [] [0] [e] 0
  | sec {secs st E m0 F m1 S u m2 A m3 e pos n H m4} : OpenDoc src secs st E m0 → Forest src .top m0 F m1 →
      Sections src (lowest secs) 65535 u m1 S m2 → AttrRun src m2 A m3 → Enters src m3 e (.container (.section pos)) →
      pos = e.span.start % 4294967296 → lowest secs ≤ n → n ≤ u → LeafSeg src (.heading n true pos) e.span.stop H m4 →
      OpenDoc src (n :: secs) ((E ++ F ++ S ++ A).length :: st) (E ++ F ++ S ++ A ++ e :: H) m4

theorem OpenDoc.len {src : Bytes} {secs st : List Nat} {E : List Event} {m : Nat} (h : OpenDoc src secs st E m) :
    st.length = secs.length + 1 := by
  induction h with
  | doc => rfl
  | sec _ _ _ _ _ _ _ _ _ ih => simp [ih]

theorem OpenDoc.pos {src : Bytes} {secs st : List Nat} {E : List Event} {m : Nat} (h : OpenDoc src secs st E m) :
    1 ≤ E.length := by
  cases h with
  | doc h => simp
  | sec => simp; omega

/-- Closing the innermost section. -/
theorem OpenDoc.close {src : Bytes} {n : Nat} {secs : List Nat} {st : List Nat} {E : List Event} {m0 m1 m2 u pos : Nat}
    {F S : List Event} (h : OpenDoc src (n :: secs) st E m0) (hF : Forest src .top m0 F m1)
    (hS : Sections src (n + 1) 65535 u m1 S m2) (hp : m2 ≤ pos) (hsp : SpanOk src ⟨pos, pos⟩) :
    ∃ o st' q sp E' F' S' k0 k1, st = o :: st' ∧ E[o]? = some ⟨.enter (.container (.section q)), sp⟩ ∧
      E ++ F ++ S ++ [⟨.exit (.container (.section q)), ⟨pos, pos⟩⟩] = E' ++ F' ++ S' ∧
      OpenDoc src secs st' E' k0 ∧ Forest src .top k0 F' k1 ∧ Sections src (lowest secs) 65535 n k1 S' pos := by
  cases h with
  | @sec secs st E m0' F0 k1 S0 u0 m2' A m3 e q n H m4 hd hF0 hS0 hA he hq hlo hu hH =>
    refine ⟨_, st, q, e.span, E, F0, S0 ++ (A ++ e :: H ++ F ++ S ++ [⟨.exit (.container (.section q)), ⟨pos, pos⟩⟩]), m0', k1,
      rfl, ?_, ?_, hd, hF0, ?_⟩
    · rw [List.getElem?_append_right (Nat.le_refl _)]
      simp
      rw [← he.kind]
    · simp
    · refine hS0.append ?_
      exact .cons hA he hq hlo hu hH hF (hS.mono (Nat.le_refl _) hp) ⟨rfl, hsp⟩ (.nil (Nat.le_refl _))

/-- What comes after the events of `OpenDoc`. -/
theorem OpenDoc.node {src : Bytes} {n : Nat} {secs : List Nat} {st : List Nat} {E : List Event} {m0 : Nat}
    (h : OpenDoc src (n :: secs) st E m0) : ∃ o st', st = o :: st' ∧ o < E.length := by
  cases h with
  | sec => exact ⟨_, _, rfl, by simp⟩

theorem AttrRun.from_head {src : Bytes} {lo hi : Nat} {d : Event} {A : List Event} (h : AttrRun src lo (d :: A) hi) :
    lo ≤ d.span.start ∧ SpanOk src d.span ∧ AttrRun src d.span.start (d :: A) hi :=
  ⟨h.forest.from_head.1, h.forest.from_head.2.1, h.forest.from_head.2.2, h.attrs⟩

/-- The state while sections are closed before a heading at `start`: the exits are inserted at `pos`. -/
structure Closing (src : Bytes) (secs : List Nat) (start pos i u : Nat) (p : TP) (E F S A : List Event) (m0 m1 : Nat) : Prop where
  ev : p.events = E ++ F ++ S ++ A
  doc : OpenDoc src secs p.open_ E m0
  forest : Forest src .top m0 F m1
  secs : Sections src (lowest secs) 65535 u m1 S pos
  run : AttrRun src pos A start
  span : SpanOk src ⟨pos, pos⟩
  attr : (p.attrStart = none ∧ A = [] ∧ pos = start) ∨ (∃ a ev, p.attrStart = some a ∧ a + i = (E ++ F ++ S).length ∧
    p.events[a]? = some ev ∧ ev.span.start = pos)

theorem closeSections_ok {src : Bytes} {start pos : Nat} (drop : List Nat) : ∀ {keep : List Nat} {i u : Nat} {p : TP} {E F S A : List Event}
    {m0 m1 : Nat}, Closing src (drop ++ keep) start pos i u p E F S A m0 m1 →
    Sat Never (p.closeSections start i drop.length) (fun p' => ∃ E F S m0 m1 i' u', Closing src keep start pos i' u' p' E F S A m0 m1 ∧
      ((drop = [] ∧ u' = u) ∨ u' ∈ drop) ∧ p'.src = p.src ∧ p'.openLists = p.openLists ∧ p'.openSections = p.openSections) := by
  induction drop with
  | nil =>
    intro keep i u p E F S A m0 m1 h
    exact Sat.ok ⟨E, F, S, m0, m1, i, u, h, Or.inl ⟨rfl, rfl⟩, rfl, rfl, rfl⟩
  | cons n drop ih =>
    intro keep i u p E F S A m0 m1 h
    have hd := h.doc
    rw [List.cons_append] at hd
    have hsec := h.secs
    rw [List.cons_append] at hsec
    obtain ⟨o, st', q, sp, E', F', S', k0, k1, hst, hget, heq, hd', hF', hS'⟩ := hd.close h.forest hsec (Nat.le_refl _) h.span
    rw [List.length_cons, TP.closeSections, hst]
    simp only
    have hnode : p.enterNode o = .ok (.container (.section q)) := by
      unfold TP.enterNode idx
      rw [h.ev]
      have hlt : o < E.length := (List.getElem?_eq_some_iff.1 hget).1
      rw [List.append_assoc, List.append_assoc, List.getElem?_append_left hlt, hget]
      rfl
    rw [hnode]
    simp only [Bind.bind, Except.bind]
    rcases h.attr with ⟨ha, hA, hps⟩ | ⟨a, ev, ha, hai, hev, hevs⟩
    · rw [ha]
      simp only
      have hc : Closing src (drop ++ keep) start pos (i + 1) n
          { p with attrStart := none, open_ := st', events := p.events ++ [⟨.exit (.container (.section q)), ⟨start, start⟩⟩] } E' F' S' A k0 k1 := by
        refine ⟨?_, hd', hF', hS', h.run, h.span, Or.inl ⟨rfl, hA, hps⟩⟩
        simp only [h.ev, hA, List.append_nil, ← heq, hps]
      refine (ih hc).mono ?_
      intro p' ⟨E, F, S, m0, m1, i', u', h1, h2, h3, h4, h5⟩
      refine ⟨E, F, S, m0, m1, i', u', h1, Or.inr ?_, h3, h4, h5⟩
      rcases h2 with ⟨_, rfl⟩ | h2 <;> simp [*]
    · rw [ha]
      simp only
      have hidx : idx p.events a = .ok ev := by unfold idx; rw [hev]
      rw [hidx]
      simp only
      have hle : a + i ≤ p.events.length := by rw [hai, h.ev]; simp only [List.length_append]; omega
      rw [if_pos hle]
      have htake : p.events.take (a + i) = E ++ F ++ S := by rw [h.ev, hai]; exact take_mid _ _ rfl
      have hdrop : p.events.drop (a + i) = A := by rw [h.ev, hai]; exact drop_mid _ _ rfl
      have hc : Closing src (drop ++ keep) start pos (i + 1) n
          { p with
            attrStart := some a
            open_ := st'
            events := p.events.take (a + i) ++ ⟨.exit (.container (.section q)), ⟨ev.span.start, ev.span.start⟩⟩ :: p.events.drop (a + i) }
          E' F' S' A k0 k1 := by
        have heq2 : E ++ F ++ S ++ (⟨.exit (.container (.section q)), ⟨ev.span.start, ev.span.start⟩⟩ :: A) = E' ++ F' ++ S' ++ A := by
          rw [hevs, ← heq]; simp
        refine ⟨?_, hd', hF', hS', h.run, h.span, Or.inr ⟨a, ?_⟩⟩
        · simp only [htake, hdrop]; exact heq2
        · by_cases hi0 : i = 0
          · refine ⟨⟨.exit (.container (.section q)), ⟨ev.span.start, ev.span.start⟩⟩, rfl, ?_, ?_, hevs⟩
            · rw [← Nat.add_assoc, hai, ← heq]; simp only [List.length_append, List.length_cons, List.length_nil]
            · simp only [htake]
              have : a = (E ++ F ++ S).length := by omega
              rw [get_mid _ _ this]
              rfl
          · refine ⟨ev, rfl, ?_, ?_, hevs⟩
            · rw [← Nat.add_assoc, hai, ← heq]; simp only [List.length_append, List.length_cons, List.length_nil]
            · simp only
              rw [List.getElem?_append_left (by rw [htake]; omega), List.getElem?_take_of_lt (by omega)]
              exact hev
      refine (ih hc).mono ?_
      intro p' ⟨E, F, S, m0, m1, i', u', h1, h2, h3, h4, h5⟩
      refine ⟨E, F, S, m0, m1, i', u', h1, Or.inr ?_, h3, h4, h5⟩
      rcases h2 with ⟨_, rfl⟩ | h2 <;> simp [*]

/-- The state between two top-level blocks. -/
structure Top (src : Bytes) (hi : Nat) (p : TP) (st : List Nat) (E0 : List Event) (lo : Nat) : Prop where
  doc : OpenDoc src p.openSections st E0 lo
  lvl : Lvl src .top p.openSections E0 st [] lo hi p
  attr : ∀ a, p.attrStart = some a → LvlA src .top p.openSections E0 st [] lo hi p ∧ ∃ F A m, p.events = E0 ++ F ++ A ∧ A ≠ [] ∧
    a = (E0 ++ F).length ∧ Forest src .top lo F m ∧ AttrRun src m A hi

theorem dropWhile_split {α : Type} (f : α → Bool) (l : List α) : ∃ d, l = d ++ l.dropWhile f ∧ (∀ x ∈ d, f x = true) ∧
    l.length - (l.dropWhile f).length = d.length := by
  refine ⟨l.takeWhile f, (List.takeWhile_append_dropWhile).symm, ?_, ?_⟩
  · intro x hx
    induction l with
    | nil => simp at hx
    | cons a l ih =>
      rw [List.takeWhile_cons] at hx
      split at hx
      · rcases List.mem_cons.1 hx with rfl | hx
        · assumption
        · exact ih hx
      · simp at hx
  · conv => lhs; arg 1; rw [← List.takeWhile_append_dropWhile (p := f) (l := l), List.length_append]
    omega

theorem dropWhile_head' {α : Type} (f : α → Bool) (l : List α) (c : α) (h : (l.dropWhile f).head? = some c) : f c = false := by
  induction l with
  | nil => simp at h
  | cons a l ih =>
    rw [List.dropWhile_cons] at h
    split at h
    · exact ih h
    · rename_i hf
      simp at h
      rw [← h]; simpa using hf

/-- A top-level heading. -/
theorem sections_ok {src : Bytes} {hi : Nat} {p : TP} {st : List Nat} {E0 : List Event} {lo : Nat} (h : Top src hi p st E0 lo)
    (hA : LvlA src .top p.openSections E0 st [] lo hi p) {level : Nat} (hl : level < 65536) {start : Nat}
    (hle : hi ≤ start) (hsp : SpanOk src ⟨start, start⟩) :
    Sat Never (p.sections level start) (fun p' => ∃ E F S A st' m0 m1 u m2 m3 secs, p'.openSections = level :: secs ∧
      OpenDoc src secs st' E m0 ∧ Forest src .top m0 F m1 ∧ Sections src (lowest secs) 65535 u m1 S m2 ∧ AttrRun src m2 A m3 ∧ m3 ≤ start ∧
      lowest secs ≤ level ∧ level ≤ u ∧ p'.events = E ++ F ++ S ++ A ++ [⟨.enter (.container (.section (start % 4294967296))), ⟨start, start⟩⟩] ∧
      p'.open_ = (E ++ F ++ S ++ A).length :: st' ∧ p'.src = src ∧ p'.openLists = [] ∧ secs.length ≤ p.openSections.length) := by
  unfold TP.sections
  simp only
  obtain ⟨d, hd1, hd2, hd3⟩ := dropWhile_split (fun l => decide (level ≤ l)) p.openSections
  rw [hd3]
  -- the state before closing
  have hclosing : ∃ pos F A m1, Closing src p.openSections start pos 0 65535 p E0 F [] A lo m1 := by
    cases ha : p.attrStart with
    | none =>
      obtain ⟨E, F, h1, h2, h3⟩ := hA.ev
      have hE := h1.nil
      subst hE
      refine ⟨start, F, [], hi, by rw [h2]; simp, ?_, h3, .nil hle, ⟨.nil (Nat.le_refl _), by simp⟩, hsp, Or.inl ⟨ha, rfl, rfl⟩⟩
      rw [hA.open_eq]; exact h.doc
    | some a =>
      obtain ⟨-, F, A, m, h1, h2, h3, h4, h5⟩ := h.attr a ha
      cases A with
      | nil => exact absurd rfl h2
      | cons d A =>
        obtain ⟨h6, h7, h8⟩ := h5.from_head
        refine ⟨d.span.start, F, d :: A, m, by rw [h1]; simp, ?_, h4, .nil h6, ⟨h8.forest.mono (Nat.le_refl _) hle, h8.attrs⟩,
          h7.at_start, Or.inr ⟨a, d, ha, by rw [h3]; simp, ?_, rfl⟩⟩
        · rw [hA.open_eq]; exact h.doc
        · rw [h1, get_mid _ _ h3]; rfl
  obtain ⟨pos, F, A, m1, hcl⟩ := hclosing
  rw [hd1] at hcl
  refine Sat.bind (closeSections_ok d hcl) ?_
  intro p1 ⟨E, F, S, k0, k1, i', u', hc, hu, hsrc, hlists, hsecs⟩
  refine Sat.ok ⟨E, F, S, A, p1.open_, k0, k1, u', pos, start, _, rfl, hc.doc, hc.forest, hc.secs, hc.run, Nat.le_refl _, ?_, ?_, ?_, ?_, ?_, ?_, ?_⟩
  · cases hk : p.openSections.dropWhile (fun l => decide (level ≤ l)) with
    | nil => exact Nat.zero_le _
    | cons l ls =>
      have := dropWhile_head' (fun l => decide (level ≤ l)) p.openSections l (by rw [hk]; rfl)
      simp at this
      exact this
  · rcases hu with ⟨_, rfl⟩ | hu
    · omega
    · have := hd2 _ hu
      simpa using this
  · simp [TP.enter, hc.ev]
  · simp [TP.enter, hc.ev]
  · simp [TP.enter, hsrc, hA.src_eq]
  · simp [TP.enter, hlists, hA.lists_eq]
  · conv => rhs; rw [hd1, List.length_append]
    omega

end Jotdown.Block
