import Verif.Proofs.HtmlBase
/-! # The renderer never exhausts the loop bound of the model -/
namespace Jotdown.Html
open Jotdown

/-- Number of events put aside. -/
def cacheSize (m : List (Bytes × List Event)) : Nat := (m.map (fun p => p.2.length)).sum

/-- Work left for the epilogue. -/
def Footnotes.work (f : Footnotes) : Nat := 2 * cacheSize f.events + (f.references.length - f.number)

theorem reference_work (f : Footnotes) (l : Bytes) :
    (f.reference l).2.work ≤ f.work + 1 ∧ (f.reference l).2.open_ = f.open_ ∧
      (f.reference l).2.events = f.events := by
  unfold Footnotes.reference
  split
  · exact ⟨Nat.le_succ _, rfl, rfl⟩
  · refine ⟨?_, rfl, rfl⟩
    simp only [Footnotes.work, List.length_append, List.length_cons, List.length_nil]
    omega

theorem footAfter_work (f : Footnotes) (e : Event) :
    (footAfter f e).work ≤ f.work + 1 ∧ (footAfter f e).open_ = f.open_ ∧
      (footAfter f e).events = f.events := by
  unfold footAfter
  split
  · exact reference_work _ _
  · exact ⟨by omega, rfl, rfl⟩

theorem cacheSize_next (m : List (Bytes × List Event)) (l : Bytes) :
    cacheSize (m.filter (fun p => p.1 != l)) +
      (((m.find? (fun p => p.1 == l)).map (·.2)).getD []).length ≤ cacheSize m := by
  induction m with
  | nil => simp [cacheSize]
  | cons p m ih =>
    by_cases h : p.1 = l
    · have h1 : (p.1 != l) = false := by simp [h]
      have h2 : (p.1 == l) = true := by simp [h]
      have h3 : cacheSize (m.filter (fun p => p.1 != l)) ≤ cacheSize m := by omega
      simp only [List.filter_cons, h1, List.find?_cons, h2]
      simp only [cacheSize, List.map_cons, List.sum_cons, Option.map_some, Option.getD_some] at *
      simp; omega
    · have h1 : (p.1 != l) = true := by simp [h]
      have h2 : (p.1 == l) = false := by simp [h]
      simp only [List.filter_cons, h1, List.find?_cons, h2]
      simp only [cacheSize, if_pos, List.map_cons, List.sum_cons] at *
      omega

theorem next_spec {f f' : Footnotes} {n : Nat} {evs : Option (List Event)}
    (h : f.next = some ((n, evs), f')) :
    f'.work + 2 * (evs.getD []).length + 1 ≤ f.work ∧ f'.open_ = f.open_ ∧
      (CacheOk f → CacheOk f' ∧ ∀ e ∈ evs.getD [], NoFoot e) := by
  unfold Footnotes.next at h
  split at h
  · simp at h
  · rename_i label hl
    simp only [Option.some.injEq, Prod.mk.injEq] at h
    obtain ⟨⟨rfl, rfl⟩, rfl⟩ := h
    have hlt : f.number < f.references.length := by
      rw [List.getElem?_eq_some_iff] at hl; exact hl.1
    refine ⟨?_, rfl, ?_⟩
    · have := cacheSize_next f.events label
      simp only [Footnotes.work]
      omega
    · intro hc
      refine ⟨⟨hc.1, ?_⟩, ?_⟩
      · intro p hp; exact hc.2 p (List.mem_filter.1 hp).1
      · intro e he
        cases hf : f.events.find? (fun p => p.1 == label) with
        | none => rw [hf] at he; simp at he
        | some p =>
          rw [hf] at he
          exact hc.2 p (List.mem_of_find?_eq_some hf) e (by simpa using he)

/-- Errors other than an exhausted loop bound. -/
def NotFuel (p : Panic) : Prop := p ≠ .fuel

theorem core_notFuel (r : Renderer) (e : Event) (ho : r.footnotes.open_ = [])
    (hc : CacheOk r.footnotes) :
    Sat NotFuel (r.core e) (fun x => x.1.footnotes.open_ = [] ∧ CacheOk x.1.footnotes ∧
      x.1.footnotes.work ≤ r.footnotes.work + 1) := by
  cases h : r.core e with
  | error p =>
    refine Sat.error ?_
    rcases core_err h with rfl | rfl <;> simp [NotFuel]
  | ok x =>
    obtain ⟨r', o⟩ := x
    refine Sat.ok ?_
    have := core_footnotes h
    have h2 := footAfter_work r.footnotes e
    simp only [this.1, CacheOk, h2.2.1, h2.2.2]
    exact ⟨ho, hc, h2.1⟩

/-- What is shown of every recursive function of the renderer. -/
def Good (w : Nat) (r' : Renderer) : Prop :=
  r'.footnotes.open_ = [] ∧ CacheOk r'.footnotes ∧ r'.footnotes.work ≤ w

theorem block_foot (r : Renderer) (c : Int) : (r.block c).1.footnotes = r.footnotes := by
  obtain ⟨d, h⟩ := block_fst r c; rw [h]

theorem beginNotes_foot (r : Renderer) : r.beginNotes.1.footnotes = r.footnotes := by
  simp only [Renderer.beginNotes, block_foot]
theorem endNotes_foot (r : Renderer) : r.endNotes.1.footnotes = r.footnotes := by
  simp only [Renderer.endNotes, block_foot]
theorem beginNote_foot (r : Renderer) (n : Nat) : (r.beginNote n).1.footnotes = r.footnotes := by
  simp only [Renderer.beginNote, block_foot]
theorem endNote_foot (r : Renderer) (n : Nat) (u : Bool) : (r.endNote n u).1.footnotes = r.footnotes := by
  cases u <;> simp [Renderer.endNote, block_foot]

theorem fuel_enough (fuel : Nat) :
    (∀ r e, r.footnotes.open_ = [] → CacheOk r.footnotes → NoFoot e → 4 * r.footnotes.work + 5 ≤ fuel →
      Sat NotFuel (Renderer.event fuel r e) (fun x => Good (r.footnotes.work + 1) x.1)) ∧
    (∀ r, r.footnotes.open_ = [] → CacheOk r.footnotes → 4 * r.footnotes.work + 4 ≤ fuel →
      Sat NotFuel (Renderer.epilogue fuel r) (fun x => Good r.footnotes.work x.1)) ∧
    (∀ r, r.footnotes.open_ = [] → CacheOk r.footnotes → 4 * r.footnotes.work + 2 ≤ fuel →
      Sat NotFuel (Renderer.notes fuel r) (fun x => Good r.footnotes.work x.1)) ∧
    (∀ r evs u, r.footnotes.open_ = [] → CacheOk r.footnotes → (∀ e ∈ evs, NoFoot e) →
      4 * (r.footnotes.work + 2 * evs.length) + 1 ≤ fuel →
      Sat NotFuel (Renderer.note fuel r evs u)
        (fun x => Good (r.footnotes.work + 2 * evs.length) x.1)) := by
  induction fuel with
  | zero =>
    refine ⟨?_, ?_, ?_, ?_⟩ <;> intros <;> omega
  | succ fuel ih =>
    obtain ⟨ihE, ihP, ihN, ihO⟩ := ih
    refine ⟨?_, ?_, ?_, ?_⟩
    · intro r e ho hc hn hf
      unfold Renderer.event
      rcases filter_cases r e with ⟨l, a, rfl, _⟩ | ⟨l, l', evs, rest, rfl, _, _⟩ | ⟨l', evs, rest, _, h, _⟩ |
        ⟨_, _, h⟩
      · exact absurd rfl (hn.1 _ _)
      · exact absurd rfl (hn.2 _)
      · rw [ho] at h; simp at h
      · have base : Good (r.footnotes.work + 1) r := ⟨ho, hc, by omega⟩
        rcases h with ⟨l, a, rfl, h⟩ | ⟨l, rfl, h⟩ | ⟨_, _, h⟩
        · rw [h]; exact Sat.ok base
        · rw [h]; exact Sat.ok base
        · rw [h]
          split
          · rename_i heq
            split at heq
            · simp only [Option.some.injEq] at heq; subst heq; exact Sat.ok base
            · simp at heq
          · refine Lex.ite_intro (P := fun x => Sat NotFuel x _) (fun _ => ?_) (fun _ => ?_)
            · refine Lex.ite_intro (P := fun x => Sat NotFuel x _) (fun _ => Sat.ok base) (fun _ => ?_)
              refine (ihP r ho hc (by omega)).mono ?_
              rintro x ⟨h1, h2, h3⟩; exact ⟨h1, h2, by omega⟩
            · exact core_notFuel r e ho hc
    · intro r ho hc hf
      unfold Renderer.epilogue
      refine Lex.ite_intro (P := fun x => Sat NotFuel x _) (fun _ => Sat.ok ⟨ho, hc, Nat.le_refl _⟩) (fun _ => ?_)
      have hb := beginNotes_foot r
      refine Sat.bind (ihN r.beginNotes.1 (by rw [hb]; exact ho) (by rw [hb]; exact hc) (by rw [hb]; omega)) ?_
      rintro x ⟨h1, h2, h3⟩
      refine Sat.ok ?_
      rw [hb] at h3
      simp only [Good, endNotes_foot]
      exact ⟨h1, h2, h3⟩
    · intro r ho hc hf
      unfold Renderer.notes
      split
      · exact Sat.ok ⟨ho, hc, Nat.le_refl _⟩
      · rename_i number evs f hnext
        obtain ⟨hw, hop, hck⟩ := next_spec hnext
        obtain ⟨hck, hev⟩ := hck hc
        have hb := beginNote_foot { r with footnotes := f } number
        simp only at hb
        refine Sat.bind (ihO ({ r with footnotes := f }.beginNote number).1 (evs.getD []) false
          (by rw [hb]; simp only [hop]; exact ho) (by rw [hb]; exact hck) hev (by rw [hb]; omega)) ?_
        rintro ⟨r1, u, o2⟩ ⟨h1, h2, h3⟩
        rw [hb] at h3
        simp only at h1 h2 h3 ⊢
        have he := endNote_foot r1 number u
        refine Sat.bind (ihN (r1.endNote number u).1 (by rw [he]; exact h1) (by rw [he]; exact h2)
          (by rw [he]; omega)) ?_
        rintro ⟨r2, o4⟩ ⟨h4, h5, h6⟩
        rw [he] at h6
        exact Sat.ok ⟨h4, h5, by simp only at h6 ⊢; omega⟩
    · intro r evs u ho hc hev hf
      unfold Renderer.note
      split
      · exact Sat.ok ⟨ho, hc, by simp⟩
      · rename_i e es
        simp only [List.length_cons] at hf ⊢
        have hes : ∀ e ∈ es, NoFoot e := fun x hx => hev x (List.mem_cons_of_mem _ hx)
        refine Lex.ite_intro (P := fun x => Sat NotFuel x _) (fun _ => ?_) (fun _ => ?_)
        · refine (ihO r es u ho hc hes (by omega)).mono ?_
          rintro x ⟨h1, h2, h3⟩; exact ⟨h1, h2, by omega⟩
        · refine Sat.bind (ihE r e ho hc (hev e (List.mem_cons_self ..)) (by omega)) ?_
          rintro ⟨r1, o2⟩ ⟨h1, h2, h3⟩
          simp only at h1 h2 h3
          refine Sat.bind (ihO r1 es _ h1 h2 hes (by omega)) ?_
          rintro ⟨r2, u2, o3⟩ ⟨h4, h5, h6⟩
          exact Sat.ok ⟨h4, h5, by simp only at h6 ⊢; omega⟩

/-- One pushed event, from any state in which the cache is ok. -/
theorem pushEvent_notFuel (r : Renderer) (e : Event) (hc : CacheOk r.footnotes) :
    Sat NotFuel (r.pushEvent e) (fun x => CacheOk x.1.footnotes) := by
  have hfu : r.fuel = (r.fuel - 1) + 1 := by unfold Renderer.fuel; omega
  have hwork : 4 * r.footnotes.work + 5 ≤ r.fuel := by
    unfold Renderer.fuel Footnotes.work cacheSize; omega
  rcases filter_cases r e with ⟨l, a, rfl, h⟩ | ⟨l, l', evs, rest, rfl, ho, h⟩ | ⟨l', evs, rest, hn, ho, h⟩ |
      ⟨ho, h1, h⟩
  · unfold Renderer.pushEvent; rw [hfu]; unfold Renderer.event; rw [h]
    refine Sat.ok ⟨?_, hc.2⟩
    intro p hp
    rcases List.mem_cons.1 hp with rfl | hp
    · simp
    · exact hc.1 p hp
  · unfold Renderer.pushEvent; rw [hfu]; unfold Renderer.event; rw [h]
    refine Sat.ok ⟨?_, ?_⟩
    · intro p hp; exact hc.1 p (by rw [ho]; exact List.mem_cons_of_mem _ hp)
    · intro p hp
      rcases List.mem_cons.1 hp with rfl | hp
      · exact hc.1 _ (by rw [ho]; exact List.mem_cons_self ..)
      · exact hc.2 p (List.mem_filter.1 hp).1
  · unfold Renderer.pushEvent; rw [hfu]; unfold Renderer.event; rw [h]
    refine Sat.ok ⟨?_, hc.2⟩
    intro p hp
    rcases List.mem_cons.1 hp with rfl | hp
    · intro x hx
      rcases List.mem_append.1 hx with hx | hx
      · exact hc.1 _ (by rw [ho]; exact List.mem_cons_self ..) x hx
      · simp at hx; subst hx; exact hn
    · exact hc.1 p (by rw [ho]; exact List.mem_cons_of_mem _ hp)
  · by_cases h2 : ∃ l, e = .end (.footnote l)
    · obtain ⟨l, rfl⟩ := h2
      unfold Renderer.pushEvent; rw [hfu]; unfold Renderer.event
      rcases h with ⟨l, a, h0, h⟩ | ⟨l, h0, h⟩ | ⟨_, _, h⟩
      · simp at h0
      · simp at h0
      · rw [h]
        split
        · rename_i heq
          split at heq
          · simp only [Option.some.injEq] at heq; subst heq; exact Sat.ok hc
          · simp at heq
        · refine Lex.ite_intro (P := fun x => Sat NotFuel x _) (fun hh => ?_) (fun _ => ?_)
          · simp at hh
          · exact (core_notFuel r _ ho hc).mono (fun x hx => hx.2.1)
    · have hn : NoFoot e := ⟨h1, fun l h => h2 ⟨l, h⟩⟩
      exact ((fuel_enough r.fuel).1 r e ho hc hn hwork).mono (fun x hx => hx.2.1)

theorem pushEvents_notFuel (es : List Event) (r : Renderer) (hc : CacheOk r.footnotes) :
    Sat NotFuel (r.pushEvents es) (fun x => CacheOk x.1.footnotes) := by
  induction es generalizing r with
  | nil => exact Sat.ok hc
  | cons e es ih =>
    unfold Renderer.pushEvents
    refine Sat.bind (pushEvent_notFuel r e hc) ?_
    rintro ⟨r1, o1⟩ h1
    refine Sat.bind (ih r1 h1) ?_
    rintro ⟨r2, o2⟩ h2
    exact Sat.ok h2

end Jotdown.Html
