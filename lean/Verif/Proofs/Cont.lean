import Verif.Proofs.Table
/-! # Containers: helper lemmas -/
namespace Jotdown.Block
open Jotdown

/-- Kinds of blocks that contain blocks. -/
def Kind.isCont : Kind → Bool
  | .blockquote | .listItem .. | .definition .. | .fenced .. => true
  | _ => false

theorem min_ws_bd {line : Bytes} (hb : Bd line) (hs : Safe line) {n : Nat} (hn : n ≤ leadingWs line) : Bd (line.drop n) := by
  cases n with
  | zero => simpa using hb
  | succ n =>
    obtain ⟨c, hc, hpc⟩ := countWhile_lt_get (p := isWs) (s := line) (i := n) (by unfold leadingWs at hn; omega)
    exact Safe.bd_after hs hc (isWs_lt hpc)

theorem prefixLen_ok {k : Kind} (hk : k.isCont = true) {o : Nat} {line : Bytes} (hb : Bd line) (hs : Safe line) :
    Sat Never (prefixLen k o line) (fun n => n ≤ line.length ∧ Bd (line.drop n)) := by
  have hle := Lex.countWhile_le isWs line
  have hws : ∀ m, Sat Never (.ok (min (if (Jotdown.trim line).isEmpty then 0 else leadingWs line) m) : R Nat)
      (fun n => n ≤ line.length ∧ Bd (line.drop n)) := by
    intro m
    refine Sat.ok ?_
    split
    · simpa using hb
    · exact ⟨by unfold leadingWs; omega, min_ws_bd hb hs (by omega)⟩
  obtain ⟨w, hw, -⟩ := trimEnd_spec (Jotdown.trimStart line)
  have hdrop : line.drop (leadingWs line) = Jotdown.trimStart line := countWhile_dropWhile isWs line
  have hget : ∀ i c, (Jotdown.trim line)[i]? = some c → line[leadingWs line + i]? = some c := by
    intro i c h
    rw [← List.getElem?_drop, hdrop, hw, List.getElem?_append_left]
    · exact h
    · exact (List.getElem?_eq_some_iff.1 h).1
  have hafter : ∀ i c, (Jotdown.trim line)[i]? = some c → c < 128 → leadingWs line + i + 1 ≤ line.length ∧ Bd (line.drop (leadingWs line + i + 1)) := by
    intro i c h hc
    have h1 := hget i c h
    exact ⟨(List.getElem?_eq_some_iff.1 h1).1, Safe.bd_after hs h1 hc⟩
  unfold prefixLen
  cases k <;> simp [Kind.isCont] at hk
  case fenced => exact hws _
  case definition => exact hws _
  case listItem => exact hws _
  case blockquote =>
    simp only
    split
    · rename_i h
      have h0 : (Jotdown.trim line).isEmpty = false := by rw [h]; rfl
      rw [h0]
      exact Sat.ok (hafter 0 (c! '>') (by rw [h]; rfl) (by decide))
    · split
      · rename_i h
        have h0 : (Jotdown.trim line).isEmpty = false := by
          cases ht : Jotdown.trim line with
          | nil => rw [ht] at h; simp at h
          | cons => rfl
        rw [h0]
        have hts : Bd (Jotdown.trim line) ∧ Safe (Jotdown.trim line) := by
          have h1 : Safe (Jotdown.trimStart line) := by rw [← hdrop]; exact hs.drop _
          have h2 : Bd (Jotdown.trimStart line) := by rw [← hdrop]; exact min_ws_bd hb hs (Nat.le_refl _)
          exact trimEnd_bd_safe h2 h1
        have hlen : 1 ≤ (Jotdown.trim line).length := by
          cases ht : Jotdown.trim line with
          | nil => rw [ht] at h; simp at h
          | cons => simp
        have hb1 : Bd ((Jotdown.trim line).drop 1) := by
          cases ht : Jotdown.trim line with
          | nil => simp
          | cons x xs =>
            rw [ht] at h hts; simp at h; subst h
            exact hts.2.1 (by decide)
        rw [strSlice_ok hlen (Nat.le_refl _) hb1 (by simp)]
        simp only [Bind.bind, Except.bind]
        refine Sat.ok ?_
        have hzero : (0 : Nat) ≤ line.length ∧ Bd (line.drop 0) := ⟨Nat.zero_le _, by simpa using hb⟩
        split
        · rename_i c s' hcs
          split
          · rename_i hc
            have h1 : (Jotdown.trim line)[1]? = some c := by
              rw [← List.head?_drop]
              cases hd : (Jotdown.trim line).drop 1 with
              | nil => rw [hd] at hcs; simp at hcs
              | cons x xs =>
                rw [hd] at hcs
                cases hn : (Jotdown.trim line).length - 1 with
                | zero => rw [hn] at hcs; simp at hcs
                | succ n => rw [hn] at hcs; simp at hcs; simp [hcs.1]
            exact hafter 1 c h1 (isWs_lt hc)
          · exact hzero
        · exact hzero
      · exact Sat.ok ⟨Nat.zero_le _, by simpa using hb⟩

theorem containerLine_ok {src : Bytes} {k : Kind} (hk : k.isCont = true) {o : Nat} {sp : Span} (h : SpanOk src sp) (hs : Safe src) :
    Sat Never (containerLine src k o sp) (fun r => SubSpan src sp r ∧ r.stop = sp.stop) := by
  unfold containerLine
  rw [h.slice]
  simp only [Bind.bind, Except.bind]
  have hbs := sliceOf_bd_safe h hs
  have hp := prefixLen_ok (o := o) hk hbs.1 hbs.2
  obtain ⟨n, hn, hn1, hn2⟩ := hp.exists_ok
  rw [hn]
  simp only
  refine Sat.ok ⟨⟨h.advance (by rw [← sliceOf_length h]; omega) ?_, by simp, by simp⟩, rfl⟩
  by_cases hle : n ≤ Lex.countWhile (· != c! '\n') (sliceOf src sp)
  · rw [Nat.min_eq_left hle]; exact hn2
  · rw [Nat.min_eq_right (by omega), countWhile_dropWhile]
    intro c hc
    have := Lex.dropWhile_head _ _ c hc
    simp at this
    subst this; decide

theorem Subs.refl_mem {src : Bytes} {ls : List Span} (h : ∀ l ∈ ls, SpanOk src l) : Subs src ls ls := by
  induction ls with
  | nil => exact .nil
  | cons l ls ih => exact .cons (.refl (h l (by simp))) (ih (fun m hm => h m (by simp [hm])))

theorem contLines_ok {src : Bytes} {k : Kind} (hk : k.isCont = true) {o lo hi : Nat} {ls : List Span} (h : LinesOk src lo ls hi)
    (hs : Safe src) :
    Sat Never (mapTail (containerLine src k o) ls) (fun r => LinesOk src lo r hi ∧ Subs src ls r ∧
      (∀ l rest, ls = l :: rest → ∃ rest', r = l :: rest')) := by
  cases h with
  | nil h => exact Sat.ok ⟨.nil h, .nil, by simp⟩
  | cons h1 h2 nl h3 =>
    unfold mapTail
    refine Sat.bind (mapLines_sub (fun sp hsp => containerLine_ok (o := o) hk hsp hs) h3) ?_
    intro r hr
    refine Sat.ok ⟨.cons h1 h2 nl hr.1, .cons (.refl h1) hr.2, ?_⟩
    intro l rest h
    simp at h
    exact ⟨r, by rw [h.1]⟩

theorem take_countWhile (p : UInt8 → Bool) (s : Bytes) {n : Nat} (hn : n ≤ Lex.countWhile p s) : ∀ c ∈ s.take n, p c = true := by
  intro c hc
  obtain ⟨i, hi, rfl⟩ := List.mem_iff_getElem.1 hc
  simp only [List.length_take] at hi
  obtain ⟨d, hd, hp⟩ := countWhile_lt_get (p := p) (s := s) (i := i) (by omega)
  rw [List.getElem_take]
  rw [List.getElem?_eq_some_iff] at hd
  obtain ⟨h1, rfl⟩ := hd
  exact hp

theorem containerLine_full {src : Bytes} {k : Kind} {o : Nat} {sp r : Span} (h : SpanOk src sp)
    (hf : Full src sp) (hr : containerLine src k o sp = .ok r) : Full src r := by
  unfold containerLine at hr
  rw [h.slice] at hr
  obtain ⟨n, hn, hr⟩ := bind_ok hr
  obtain ⟨m, hm, hr⟩ := bind_ok hr
  simp only [Except.ok.injEq] at hn
  subst hn
  simp only [pure, Except.pure, Except.ok.injEq] at hr
  subst hr
  have hle := Lex.countWhile_le (· != c! '\n') (sliceOf src sp)
  refine hf.advance ?_ (by omega)
  intro hmem
  have := take_countWhile (· != c! '\n') (sliceOf src sp) (Nat.min_le_right _ _) _ hmem
  simp at this

theorem mapLines_full {src : Bytes} {f : Span → R Span} (hf : ∀ sp r, SpanOk src sp → Full src sp → f sp = .ok r → Full src r) :
    ∀ {ls r : List Span}, (∀ l ∈ ls, SpanOk src l) → Fulls src ls → mapLines f ls = .ok r → Fulls src r := by
  intro ls
  induction ls with
  | nil => intro r _ _ h; cases h; intro l hl; cases hl
  | cons l ls ih =>
    intro r hs hfu h
    unfold mapLines at h
    obtain ⟨x, hx, h⟩ := bind_ok h
    obtain ⟨xs, hxs, h⟩ := bind_ok h
    cases h
    intro m hm
    rcases List.mem_cons.1 hm with rfl | hm
    · exact hf l _ (hs l (by simp)) (hfu l (by simp)) hx
    · exact ih (fun l hl => hs l (by simp [hl])) (fun l hl => hfu l (by simp [hl])) hxs m hm

theorem contLines_full {src : Bytes} {k : Kind} {o : Nat} {ls r : List Span} (h : ∀ l ∈ ls, SpanOk src l)
    (hf : Fulls src ls) (hr : mapTail (containerLine src k o) ls = .ok r) : Fulls src r := by
  cases ls with
  | nil => cases hr; exact hf
  | cons l ls =>
    unfold mapTail at hr
    obtain ⟨xs, hxs, hr⟩ := bind_ok hr
    cases hr
    intro m hm
    rcases List.mem_cons.1 hm with rfl | hm
    · exact hf _ (by simp)
    · exact mapLines_full (fun _ _ => containerLine_full) (fun l hl => h l (by simp [hl])) (fun l hl => hf l (by simp [hl])) hxs m hm

section
variable {src : Bytes} {cx : Cx} {secs : List Nat} {E0 : List Event} {st : List Nat} {lists : List OpenList} {lo hi : Nat} {p : TP}

/-- The open lists seen from inside a container. -/
theorem Lvl.ctx (h : Lvl src cx secs E0 st lists lo hi p) (hc : CtxOk E0 st lists) :
    ∀ l ∈ p.openLists, l.depth ≤ p.open_.length ∧ l.event < p.events.length := by
  rcases h with h | h
  · obtain ⟨E, F, h1, h2, -⟩ := h.ev
    intro l hl
    rw [h.lists_eq] at hl
    have := hc l hl
    rw [h.open_eq, h2, List.length_append, h1.1]
    omega
  · obtain ⟨E, F, e, G, l, ty, t, m, h1, h2, h3, h4, h5, h6, -⟩ := h.ev
    intro l' hl
    rw [h4] at hl
    rw [h3, h2]
    rcases List.mem_cons.1 hl with rfl | hl
    · rw [h5, h6]; simp
    · have := hc l' hl
      simp [h1.1]
      omega

/-- After an item a list is open on this level. -/
theorem openList_item (h : Ready src cx secs E0 st lists lo hi k p) (hc : CtxOk E0 st lists) {i : Nat} {ty : ListType} {lb : Bool}
    (hk : k = .listItem i ty lb) (hty : TyOk ty)
    (hn : NodeOk src ⟨hi, hi⟩ (.container (.list ty true))) (hsp : SpanOk src ⟨hi, hi⟩)
    (hd : st.length + 2 ≤ maxDepth src) :
    Sat (Allowed src) (p.openList k hi) (fun p' => LvlB src cx secs E0 st lists lo hi p' ∧ p'.attrStart = p.attrStart) := by
  subst hk
  unfold TP.openList
  rcases h with h | ⟨h, -⟩
  · have hsame : p.sameDepth = true := by
      unfold TP.sameDepth
      rw [h.lists_eq, h.open_eq]
      cases lists with
      | nil => rfl
      | cons l ls => simp [(hc l (by simp)).1]
    simp only []
    rw [if_pos hsame]
    by_cases hd' : (p.enter (.container (.list ty true)) ⟨hi, hi⟩).open_.length < 65536
    · unfold TP.pushList
      rw [if_pos hd']
      obtain ⟨E, F, h1, h2, h3⟩ := h.ev
      refine Sat.ok ⟨⟨h.cx_ne, h.src_eq, h.secs_eq, E, F, ⟨.enter (.container (.list ty true)), ⟨hi, hi⟩⟩, [],
        ⟨ty, ty, (p.events.length :: p.open_).length, p.events.length⟩, ty, true, hi, h1, by simp [TP.enter, h2], ?_, ?_, ?_, ?_, ⟨hty, hn⟩, hty,
        ⟨rfl, hn, hsp, Nat.le_refl _⟩, h3, .nil (Nat.le_refl _)⟩, rfl⟩
      · simp [TP.enter, h.open_eq, h2]
      · simp [TP.enter, h.lists_eq]
      · simp only [h2]
      · simp [h.open_eq]
    · unfold TP.pushList
      rw [if_neg hd']
      refine Sat.error (Or.inr ⟨rfl, ?_⟩)
      simp [TP.enter, h.open_eq] at hd'
      omega
  · obtain ⟨E, F, e, G, l, ty', t, m, h1, h2, h3, h4, h5, h6, -⟩ := h.ev
    have hsame : p.sameDepth = false := by
      unfold TP.sameDepth
      rw [h4, h3]
      simp [h6]
    simp only [hsame, Bool.false_eq_true, if_false]
    exact Sat.ok ⟨h, rfl⟩

end

end Jotdown.Block
