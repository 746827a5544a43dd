import Verif.Proofs.RoundRead
import Verif.Spec.RoundDoc
/-! # Round trip: written inline content is read as its events -/
namespace Jotdown.Round
open Jotdown Jotdown.Notation

/-- A text without a newline before another. -/
theorem splitNl_append {a : Bytes} (ha : c! '\n' ∉ a) (s : Bytes) (hs : s ≠ []) :
    ∃ l ls, splitNl s = l :: ls ∧ splitNl (a ++ s) = (a ++ l) :: ls := by
  induction a with
  | nil =>
    cases hsp : splitNl s with
    | nil =>
      exfalso
      cases s with
      | nil => exact hs rfl
      | cons c s =>
        simp only [splitNl] at hsp
        split at hsp
        · cases hsp
        · split at hsp <;> cases hsp
    | cons l ls => exact ⟨l, ls, rfl, hsp⟩
  | cons c a ih =>
    obtain ⟨l, ls, h1, h2⟩ := ih (fun h => ha (List.mem_cons_of_mem _ h))
    refine ⟨l, ls, h1, ?_⟩
    have hc : ¬ c = c! '\n' := fun h => ha (h ▸ List.mem_cons_self ..)
    simp only [List.cons_append, splitNl, hc, if_false, h2]

theorem splitNl_nonl {a : Bytes} (ha : c! '\n' ∉ a) (hne : a ≠ []) : splitNl a = [a] := by
  induction a with
  | nil => exact absurd rfl hne
  | cons c a ih =>
    have hc : ¬ c = c! '\n' := fun h => ha (h ▸ List.mem_cons_self ..)
    simp only [splitNl, hc, if_false]
    cases a with
    | nil => rfl
    | cons d a => rw [ih (fun h => ha (List.mem_cons_of_mem _ h)) (by simp)]

/-- The end of a line. -/
def F.isNl : F → Bool
  | .nl _ => true
  | _ => false

/-- Pieces split after each end of a line. -/
def splitF : List F → List (List F)
  | [] => []
  | f :: T =>
    if f.isNl = true then [f] :: splitF T
    else match splitF T with
      | [] => [[f]]
      | l :: ls => (f :: l) :: ls

theorem splitF_flatten (T : List F) : (splitF T).flatten = T := by
  induction T with
  | nil => rfl
  | cons f T ih =>
    simp only [splitF]
    split
    · simp [ih]
    · split
      · rename_i h; rw [h] at ih; simp at ih; simp [ih]
      · rename_i h; rw [h] at ih; simp at ih; simp [ih]

theorem splitF_brs (T : List F) : ∀ t ∈ (splitF T).dropLast, EndsNl t := by
  induction T with
  | nil => simp [splitF]
  | cons f T ih =>
    simp only [splitF]
    split
    · rename_i hf
      intro t ht
      cases h : splitF T with
      | nil => rw [h] at ht; simp at ht
      | cons l ls =>
        rw [h, List.dropLast_cons_of_ne_nil (by simp)] at ht
        cases ht with
        | head => cases f <;> first | exact ⟨_, rfl⟩ | cases hf
        | tail _ ht => exact ih t (h ▸ ht)
    · split
      · simp
      · rename_i l ls h
        rw [h] at ih
        intro t ht
        cases ls with
        | nil => simp at ht
        | cons l2 ls =>
          rw [List.dropLast_cons_of_ne_nil (by simp)] at ht ih
          cases ht with
          | head =>
            obtain ⟨hard, this⟩ := ih l (by simp)
            cases l with
            | nil => simp at this
            | cons a l => exact ⟨hard, by simpa using this⟩
          | tail _ ht => exact ih t (List.mem_cons_of_mem _ ht)

theorem F.print_ne {f : F} {x : Ctx} {S : List Op} {T : List F} (h : okF x S (f :: T)) : f.print ≠ [] := by
  cases f with
  | rest v n a u t =>
    obtain ⟨_, ⟨⟨h1, _⟩, _⟩, _⟩ := h
    cases n with
    | zero => omega
    | succ n => simp [F.print, ticks, List.replicate_succ]
  | code v n s =>
    obtain ⟨_, ⟨⟨h1, _⟩, _⟩, _⟩ := h
    cases n with
    | zero => omega
    | succ n => simp [F.print, ticks, List.replicate_succ]
  | opn o =>
    cases o with
    | mark m b => cases b <;> simp [F.print, Op.opens]
    | link b u => cases b <;> simp [F.print, Op.opens]
  | cls o =>
    cases o with
    | mark m b => cases b <;> simp [F.print, Op.closes]
    | link b u => simp [F.print, Op.closes]
  | dash em => cases em <;> simp [F.print]
  | right d => cases d <;> simp [F.print]
  | dols d => cases d <;> simp [F.print, dollars]
  | _ => simp [F.print]

theorem nl_plain : isPlain (c! '\n') = false := by decide
theorem nl_punct : isPunct (c! '\n') = false := by decide

/-- No piece other than the end of a line has a newline, if the rest of verbatim text is not part. -/
theorem F.nonl {f : F} {x : Ctx} {S : List Op} {T : List F} (h : okF x S (f :: T)) (hf : f.isNl = false) (hr : ∀ v n a u t, f ≠ .rest v n a u t) : c! '\n' ∉ f.print := by
  cases f with
  | ch b =>
    intro hm
    simp only [F.print, List.mem_singleton] at hm
    have := h.2.1
    rw [← hm, nl_plain] at this
    cases this
  | bsl => decide
  | lit c =>
    intro hm
    simp only [F.print, List.mem_singleton] at hm
    have := h.2.1
    rw [← hm, nl_punct] at this
    cases this
  | nbsp => decide
  | dots => decide
  | dash em => cases em <;> decide
  | right d => cases d <;> decide
  | dols d => cases d <;> decide
  | apos => decide
  | opn o =>
    cases o with
    | mark m b => cases m <;> cases b <;> decide
    | link b u => cases b <;> (simp only [F.print, Op.opens]; decide)
  | cls o =>
    cases o with
    | mark m b => cases m <;> cases b <;> decide
    | link b u =>
      intro hm
      simp only [F.print, Op.closes, List.mem_append, List.mem_cons, List.not_mem_nil, or_false] at hm
      rcases hm with (hm | hm) | hm
      · exact absurd hm (by decide)
      · have h7 : isUrl (c! '\n') = true := h.2.1 _ hm
        exact absurd h7 (by decide)
      · exact absurd hm (by decide)
  | sym s =>
    intro hm
    simp only [F.print, List.mem_append, List.mem_cons, List.not_mem_nil, or_false] at hm
    rcases hm with hm | hm | hm
    · exact absurd hm (by decide)
    · have := h.2.1.2 _ hm
      exact absurd this (by decide)
    · exact absurd hm (by decide)
  | note s =>
    intro hm
    simp only [F.print, List.mem_append, List.mem_cons, List.not_mem_nil, or_false] at hm
    rcases hm with hm | hm | hm | hm
    · exact absurd hm (by decide)
    · exact absurd hm (by decide)
    · exact (h.2.1.1 _ hm).2.2 rfl
    · exact absurd hm (by decide)
  | auto s =>
    intro hm
    simp only [F.print, List.mem_append, List.mem_cons, List.not_mem_nil, or_false] at hm
    rcases hm with hm | hm | hm
    · exact absurd hm (by decide)
    · have := (h.2.1.2 _ hm).1
      exact absurd this (by decide)
    · exact absurd hm (by decide)
  | code v n s =>
    intro hm
    obtain ⟨_, ⟨⟨_, _, _, h3, _⟩, hv⟩, _⟩ := h
    have hk : ∀ c, c! '\n' ∉ keepApart c := by intro c; unfold keepApart; split <;> decide
    simp only [F.print, List.mem_append, ticks, List.mem_replicate] at hm
    rcases hm with ((hm | (hm | hm) | hm) | hm) | hm
    · exact absurd hm.2 (by decide)
    · exact hk _ hm
    · exact h3 hm
    · exact hk _ hm
    · exact absurd hm.2 (by decide)
    · cases v with
      | plain => cases hm
      | math d => cases hm
      | raw f =>
        simp only [Verb.behind, List.mem_append] at hm
        rcases hm with (hm | hm) | hm
        · revert hm; decide
        · have := (hv.2 _ hm).1
          exact absurd this (by decide)
        · revert hm; decide
  | rest v n a u t => exact absurd rfl (hr v n a u t)
  | nl hard => cases hf

theorem splitNl_fprint {x : Ctx} {S : List Op} {T : List F} (h : okF x S T) (hr : ∀ v n a u t, F.rest v n a u t ∉ T) : splitNl (fprint T) = (splitF T).map fprint := by
  induction T generalizing x S with
  | nil => rfl
  | cons f T ih =>
    obtain ⟨x', S', h', _⟩ := okF_tail h
    have ih := ih h' (fun v n a u t hm => hr v n a u t (List.mem_cons_of_mem _ hm))
    by_cases hf : f.isNl = true
    · cases f with
      | nl hard =>
        simp only [splitF, F.isNl, if_true, fprint_cons, F.print, List.map_cons, ← ih, fprint_nil]
        rfl
      | _ => cases hf
    · have hf : f.isNl = false := by simpa using hf
      have hnl := F.nonl h hf (fun v n a u t he => hr v n a u t (he ▸ List.mem_cons_self ..))
      simp only [splitF, hf, Bool.false_eq_true, if_false, fprint_cons]
      cases T with
      | nil => simpa [splitF, hf] using splitNl_nonl hnl (F.print_ne h)
      | cons g T =>
        have hne : fprint (g :: T) ≠ [] := by
          have := F.print_ne h'
          simp [this]
        obtain ⟨l, ls, h1, h2⟩ := splitNl_append hnl (fprint (g :: T)) hne
        rw [h2]
        rw [h1] at ih
        cases hsp : splitF (g :: T) with
        | nil => rw [hsp] at ih; cases ih
        | cons t Ts =>
          rw [hsp] at ih
          simp only [List.map_cons, List.cons.injEq] at ih
          simp only [List.map_cons, fprint_cons, ih.1, ih.2]

mutual
theorem Inl.flat_rest (i : Inl) : ∀ v n a u t, F.rest v n a u t ∉ i.flat := by
  intro v n a u t h
  cases i with
  | text s => simp [Inl.flat] at h
  | elem m b body =>
    simp only [Inl.flat, List.mem_cons, List.mem_append, reduceCtorEq, List.not_mem_nil, or_false, false_or] at h
    exact flats_rest body v n a u t h
  | link b body url =>
    simp only [Inl.flat, List.mem_cons, List.mem_append, reduceCtorEq, List.not_mem_nil, or_false, false_or] at h
    exact flats_rest body v n a u t h
  | code w n s => cases w <;> simp [Inl.flat] at h
  | _ => simp [Inl.flat] at h
theorem flats_rest (is : List Inl) : ∀ v n a u t, F.rest v n a u t ∉ flats is := by
  intro v n a u t h
  cases is with
  | nil => simp [flats] at h
  | cons i is =>
    simp only [flats, List.mem_append] at h
    rcases h with h | h
    · exact Inl.flat_rest i v n a u t h
    · exact flats_rest is v n a u t h
end

theorem opens_fresh {is : List Inl} (h : opens is = true) : fresh is = true := by
  cases is with
  | nil => rfl
  | cons i is =>
    cases i with
    | apos => cases h
    | code v n s => cases v <;> first | rfl | cases h
    | _ => rfl

theorem flats_okF (is : List Inl) (h : InlsOk [] is) (hf : follow is = true) (ha : fresh is = true) : okF .bol [] (flats is) := by
  have := flats_ok is [] h hf .bol rfl ?_ [] (by simp) [] (fun y hy _ => ⟨hy, rfl⟩)
  · simpa using this
  · cases is with
    | nil => trivial
    | cons j js =>
      cases j with
      | elem m b _ => cases m <;> cases b <;> rfl
      | apos => cases ha
      | code v n s => cases v <;> first | rfl | cases ha
      | _ => rfl

/-- Lines of written content are read as its events. -/
theorem inline_round {src : Bytes} {pre : PrePass} {ls : List Span} {es : List (Event × Span)} {is : List Inl} (h1 : InlsOk [] is) (h2 : follow is = true) (ha : fresh is = true) (h3 : is ≠ [])
    (hl : ls.map (textAt src) = splitNl (prints is)) (h : ReadsLines (freshParser src pre) ls es) : es.map (·.1) = joined (inlEvents is) := by
  have ho := flats_okF is h1 h2 ha
  rw [← flats_print, splitNl_fprint ho (flats_rest is)] at hl
  have hne : ls ≠ [] := by
    rintro rfl
    simp only [List.map_nil, List.nil_eq, List.map_eq_nil_iff] at hl
    have := splitF_flatten (flats is)
    rw [hl] at this
    cases is with
    | nil => exact h3 rfl
    | cons i is =>
      simp only [List.flatten_nil, flats, List.nil_eq, List.append_eq_nil_iff] at this
      simp only [InlsOk] at h1
      have hi := h1.1
      cases i with
      | text s => simp only [Inl.flat, List.map_eq_nil_iff] at this; simp only [Inl.Ok] at hi; exact hi.1 this.1
      | code v n s => cases v <;> simp [Inl.flat] at this
      | _ => simp [Inl.flat] at this
  have := read_ok h hne hl (by rw [splitF_flatten]; exact ho) (splitF_brs _)
  rw [splitF_flatten] at this
  rw [this]
  simpa using flats_raw is [] []

end Jotdown.Round
