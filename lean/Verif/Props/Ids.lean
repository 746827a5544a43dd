import Verif.Proofs.Emit
import Verif.Proofs.HeadingTie
import Verif.Props.Block
/-! # C36, C37, C38: ids of headings and resolution of references

The theorems hold for every run that does not panic. -/
namespace Jotdown
open Jotdown

/-! ## Order of strings -/

theorem bytesCmp_eq {a b : Bytes} : bytesCmp a b = .eq ↔ a = b := by
  induction a generalizing b with
  | nil => cases b <;> simp [bytesCmp]
  | cons x a ih =>
    cases b with
    | nil => simp [bytesCmp]
    | cons y b =>
      unfold bytesCmp
      split
      · rename_i h; simp; intro h2; subst h2; exact absurd h (UInt8.lt_irrefl _)
      · split
        · rename_i h; simp; intro h2; subst h2; exact absurd h (UInt8.lt_irrefl _)
        · rename_i h1 h2
          have : x = y := UInt8.le_antisymm (UInt8.not_lt.1 h2) (UInt8.not_lt.1 h1)
          rw [ih, this]; simp

theorem bytesCmp_swap (a b : Bytes) : bytesCmp b a = (bytesCmp a b).swap := by
  induction a generalizing b with
  | nil => cases b <;> rfl
  | cons x a ih =>
    cases b with
    | nil => rfl
    | cons y b =>
      unfold bytesCmp
      by_cases h1 : x < y
      · have h2 : ¬ y < x := UInt8.lt_asymm h1
        simp [h1, h2]
      · by_cases h2 : y < x
        · simp [h1, h2]
        · simp [h1, h2, ih]

theorem bytesCmp_le_trans {a b c : Bytes} (h1 : bytesCmp a b ≠ .gt) (h2 : bytesCmp b c ≠ .gt) : bytesCmp a c ≠ .gt := by
  induction a generalizing b c with
  | nil => cases c <;> simp [bytesCmp]
  | cons x a ih =>
    cases b with
    | nil => simp [bytesCmp] at h1
    | cons y b =>
      cases c with
      | nil => simp [bytesCmp] at h2
      | cons z c =>
        unfold bytesCmp at h1 h2 ⊢
        by_cases hxy : x < y
        · by_cases hyz : y < z
          · simp [UInt8.lt_trans hxy hyz]
          · by_cases hzy : z < y
            · simp [hyz, hzy] at h2
            · have : y = z := UInt8.le_antisymm (UInt8.not_lt.1 hzy) (UInt8.not_lt.1 hyz)
              subst this; simp [hxy]
        · by_cases hyx : y < x
          · simp [hxy, hyx] at h1
          · have : x = y := UInt8.le_antisymm (UInt8.not_lt.1 hyx) (UInt8.not_lt.1 hxy)
            subst this
            by_cases hyz : x < z
            · simp [hyz]
            · by_cases hzy : z < x
              · simp [hyz, hzy] at h2
              · simp only [UInt8.lt_irrefl, hyz, hzy, if_false] at h1 h2 ⊢
                exact ih h1 h2

/-! ## The first pass -/

theorem prePass_ok {src : Bytes} {blocks : List Block.Event} {ip ip' : Inline.IP} {pp : PrePass} (hu : Utf8 src)
    (hb : Block.parse src = .ok blocks) (h : PrePass.new src blocks ip = .ok (pp, ip')) :
    SomeIds [] pp.headings ∧ pp.headings.map (·.location) = (headingStarts blocks).map (· % 4294967296) ∧
      pp.linkDefinitions.map (fun d => (d.1, d.2.1)) = (definitions src blocks).reverse ∧
      pp.headingsLex = pp.headings.mergeSort (fun a b => bytesCmp a.text b.text != .gt) := by
  unfold PrePass.new at h
  obtain ⟨s, h1, h⟩ := bind_ok h
  simp only [Pure.pure, Except.pure, Except.ok.injEq, Prod.mk.injEq] at h
  obtain ⟨rfl, rfl⟩ := h
  obtain ⟨body, he, hn⟩ := Block.C29_block_events_form_a_tree src hu blocks hb
  have h2 : PreOk { inlineParser := ip } [] [] := ⟨trivial, rfl, rfl, rfl⟩
  rw [he] at h1 ⊢
  unfold PreState.loop at h1
  simp only at h1
  have := loop_pre _ _ _ _ _ _ _ (Nat.le_refl _) hn h2 h1
  exact ⟨this.ids, by simpa [headingStarts] using this.locs, by simpa [definitions] using this.defs, rfl⟩

/-! ## Lookup -/

theorem byLocation {hs : List Heading} {h : Heading} (hsort : (hs.map (·.location)).Pairwise (· < ·)) (hm : h ∈ hs)
    {pp : PrePass} (hpp : pp.headings = hs) : pp.headingIdByLocation h.location = some h.id := by
  subst hpp
  rw [List.pairwise_map] at hsort
  have hlt : ∀ (i j : Nat) x y, i < j → pp.headings[i]? = some x → pp.headings[j]? = some y → x.location < y.location := by
    intro i j x y hij hx hy
    obtain ⟨hi, rfl⟩ := List.getElem?_eq_some_iff.1 hx
    obtain ⟨hj, rfl⟩ := List.getElem?_eq_some_iff.1 hy
    exact List.pairwise_iff_getElem.1 hsort i j hi hj hij
  obtain ⟨k, hk⟩ := List.getElem?_of_mem hm
  have hkl : k < pp.headings.length := (List.getElem?_eq_some_iff.1 hk).1
  obtain ⟨x, hx, h1, h2⟩ := bsearch_found (f := fun a => compare a.location h.location) (l := pp.headings) (by
    intro i j x y hij hx hy hg
    rw [Nat.compare_eq_gt] at hg ⊢
    rcases Nat.eq_or_lt_of_le hij with rfl | hij
    · rw [hx] at hy; cases hy; exact hg
    · have := hlt _ _ _ _ hij hx hy; omega) (by
    intro i j x y hij hx hy hg
    rw [Nat.compare_eq_lt] at hg ⊢
    rcases Nat.eq_or_lt_of_le hij with rfl | hij
    · rw [hx] at hy; cases hy; exact hg
    · have := hlt _ _ _ _ hij hx hy; omega) 0 pp.headings.length (by omega)
    ⟨k, h, by omega, by omega, hk, by simp⟩
  unfold PrePass.headingIdByLocation
  rw [h1]
  have hloc : x.location = h.location := by simpa [Nat.compare_eq_eq] using h2
  obtain ⟨j, hj⟩ := List.getElem?_of_mem hx
  have : x = h := by
    rcases Nat.lt_trichotomy j k with hjk | hjk | hjk
    · have := hlt _ _ _ _ hjk hj hk; omega
    · subst hjk; rw [hj] at hk; exact Option.some.inj hk
    · have := hlt _ _ _ _ hjk hk hj; omega
  rw [this]; rfl

theorem byTag {pp : PrePass} (hl : pp.headingsLex = pp.headings.mergeSort (fun a b => bytesCmp a.text b.text != .gt)) (tag : Bytes) :
    (pp.headingIdByTag tag = none ∧ ∀ h ∈ pp.headings, h.text ≠ tag) ∨
    ∃ h ∈ pp.headings, h.text = tag ∧ pp.headingIdByTag tag = some h.id := by
  have hsort : pp.headingsLex.Pairwise (fun a b => bytesCmp a.text b.text ≠ .gt) := by
    rw [hl]
    have := List.pairwise_mergeSort (le := fun (a b : Heading) => bytesCmp a.text b.text != .gt)
      (fun a b c h1 h2 => by simp only [bne_iff_ne] at h1 h2 ⊢; exact bytesCmp_le_trans h1 h2)
      (fun a b => by
        rw [bytesCmp_swap a.text b.text]
        cases bytesCmp a.text b.text <;> simp) pp.headings
    exact this.imp (fun h => by simpa using h)
  have hle : ∀ (i j : Nat) x y, i ≤ j → pp.headingsLex[i]? = some x → pp.headingsLex[j]? = some y → bytesCmp x.text y.text ≠ .gt := by
    intro i j x y hij hx hy
    obtain ⟨hi, rfl⟩ := List.getElem?_eq_some_iff.1 hx
    obtain ⟨hj, rfl⟩ := List.getElem?_eq_some_iff.1 hy
    rcases Nat.eq_or_lt_of_le hij with rfl | hij
    · rw [bytesCmp_eq.2 rfl]; simp
    · exact List.pairwise_iff_getElem.1 hsort i j hi hj hij
  by_cases hex : ∃ h ∈ pp.headings, h.text = tag
  · right
    obtain ⟨h, hm, ht⟩ := hex
    have hm' : h ∈ pp.headingsLex := by rw [hl, List.mem_mergeSort]; exact hm
    obtain ⟨k, hk⟩ := List.getElem?_of_mem hm'
    have hkl : k < pp.headingsLex.length := (List.getElem?_eq_some_iff.1 hk).1
    obtain ⟨x, hx, h1, h2⟩ := bsearch_found (f := fun a => bytesCmp a.text tag) (l := pp.headingsLex) (by
      intro i j x y hij hx hy hg
      have h3 := hle _ _ _ _ hij hx hy
      rcases hc : bytesCmp y.text tag with _ | _ | _
      · exact absurd hg (bytesCmp_le_trans h3 (by rw [hc]; simp))
      · exact absurd hg (bytesCmp_le_trans h3 (by rw [hc]; simp))
      · rfl) (by
      intro i j x y hij hx hy hg
      have h3 := hle _ _ _ _ hij hx hy
      have h4 : bytesCmp tag y.text = .gt := by rw [bytesCmp_swap y.text tag, hg]; rfl
      rcases hc : bytesCmp x.text tag with _ | _ | _
      · rfl
      · exact absurd h4 (bytesCmp_le_trans (by rw [bytesCmp_swap x.text tag, hc]; simp) h3)
      · exact absurd h4 (bytesCmp_le_trans (by rw [bytesCmp_swap x.text tag, hc]; simp) h3)) 0 pp.headingsLex.length (by omega)
      ⟨k, h, by omega, by omega, hk, bytesCmp_eq.2 ht⟩
    refine ⟨x, ?_, bytesCmp_eq.1 h2, ?_⟩
    · rw [hl, List.mem_mergeSort] at hx; exact hx
    · unfold PrePass.headingIdByTag; rw [h1]; rfl
  · left
    refine ⟨?_, fun h hm ht => hex ⟨h, hm, ht⟩⟩
    unfold PrePass.headingIdByTag
    cases hb : bsearch (fun a => bytesCmp a.text tag) pp.headingsLex 0 pp.headingsLex.length with
    | none => rfl
    | some x =>
      obtain ⟨h1, h2⟩ := bsearch_mem _ _ hb
      rw [hl, List.mem_mergeSort] at h1
      exact absurd ⟨x, h1, bytesCmp_eq.1 h2⟩ hex

/-- The last definition with the label. -/
def lastDefinition {α : Type} (defs : List (Bytes × α)) (label : Bytes) : Option α :=
  (defs.reverse.find? (fun d => d.1 == label)).map (·.2)

theorem linkDefinition_last {pp : PrePass} {defs : List (Bytes × Bytes × Attr.Attributes)} (h : pp.linkDefinitions = defs.reverse) (label : Bytes) :
    lastDefinition defs label = pp.linkDefinition label := by
  unfold lastDefinition PrePass.linkDefinition
  rw [← h]

theorem blockIds_eq {pp : PrePass} {blocks : List Block.Event} {n : Nat} (hd : HdOk 0 blocks n) (hn : n ≤ 4294967296)
    (hl : pp.headings.map (·.location) = (headingStarts blocks).map (· % 4294967296)) :
    blockIds pp blocks = pp.headings.map (·.id) := by
  have hst : (headingStarts blocks).map (· % 4294967296) = headingStarts blocks := by
    have : (headingStarts blocks).map (· % 4294967296) = (headingStarts blocks).map id :=
      List.map_congr_left (fun s hs => by have := hd.range s hs; simp only [id]; omega)
    simpa using this
  rw [hst] at hl
  have hsort : (pp.headings.map (·.location)).Pairwise (· < ·) := by rw [hl]; exact hd.sorted
  have h1 : blockIds pp blocks = (headingStarts blocks).map (fun s => (pp.headingIdByLocation s).getD []) := by
    have hown := hd.own
    have hrange := hd.range
    clear hd hl hst
    induction blocks with
    | nil => rfl
    | cons e es ih =>
      have h2 := ih (fun x hx => hown x (by simp [hx])) (fun s hs => hrange s (by
        simp only [headingStarts, List.filterMap_cons] at hs ⊢
        split <;> simp [hs]))
      simp only [blockIds, headingStarts, List.filterMap_cons] at h2 ⊢
      have hk := hown e (by simp)
      cases hkk : e.kind with
      | enter n =>
        cases n with
        | container c => exact h2
        | leaf l =>
          cases l with
          | heading a b c =>
            simp only [List.map_cons]
            rw [h2]
            have h3 := hk _ _ _ hkk
            have h4 := hrange e.span.start (by simp [headingStarts, hkk])
            rw [h3, Nat.mod_eq_of_lt (by omega)]
          | _ => exact h2
      | _ => exact h2
  rw [h1, ← hl, List.map_map]
  refine List.map_congr_left (fun h hm => ?_)
  simp only [Function.comp]
  rw [byLocation hsort hm rfl]
  rfl

/-! ## Properties -/

theorem new_ok {src : Bytes} {p : Parser} (h : Parser.new src = .ok p) :
    ∃ ip', Block.parse src = .ok p.blocks ∧ PrePass.new src p.blocks (Inline.IP.new src) = .ok (p.prePass, ip') ∧ p.src = src := by
  unfold Parser.new at h
  obtain ⟨blocks, h1, h⟩ := bind_ok h
  obtain ⟨⟨pp, ip⟩, h2, h⟩ := bind_ok h
  simp only [Pure.pure, Except.pure, Except.ok.injEq] at h
  subst h
  exact ⟨ip, h1, h2, rfl⟩

/-- The headings that the parser knows are those of the document. -/
theorem parser_headings {src : Bytes} (hu : Utf8 src) {p : Parser} (hp : Parser.new src = .ok p) :
    AutoIds src [] p.prePass.headings (headingSpans p.blocks) := by
  obtain ⟨ip, h1, h2, -⟩ := new_ok hp
  obtain ⟨es, he, hbt⟩ := ((Block.parse_shape hu).of_ok h1).bt
  rw [he] at h2 ⊢
  exact (prePass_tie hu.safe hu.bd hbt rfl).of_ok h2

theorem parser_headingIds {src : Bytes} (hu : Utf8 src) (hlen : src.length ≤ 4294967296) {es : List Event} (h : events src = .ok es) {p : Parser} (hp : Parser.new src = .ok p) :
    headingIds es = p.prePass.headings.map (·.id) := by
  unfold events at h
  obtain ⟨oes, h1, h⟩ := bind_ok h
  simp only [Pure.pure, Except.pure, Except.ok.injEq] at h
  subst h
  unfold offsetEvents at h1
  obtain ⟨p', h2, h1⟩ := bind_ok h1
  rw [hp] at h2
  cases h2
  obtain ⟨ip', h3, h4, h5⟩ := new_ok hp
  obtain ⟨k1, k2, k3, k4⟩ := prePass_ok hu h3 h4
  rw [(collect_ok _ h1).1, blockIds_eq (hd_parse hu h3) hlen k2]

end Jotdown
