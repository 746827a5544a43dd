import Verif.Proofs.HtmlNest
/-! # Rendering well-nested events: one event outside link definitions -/
namespace Jotdown.Html
open Jotdown

theorem step_core {r : Renderer} {e : Event} (ho : r.footnotes.open_ = []) (hi : r.ignore = false)
    (hn : NoFoot e) (h1 : ∀ l a, e ≠ .start (.linkDefinition l) a) (h2 : ∀ l, e ≠ .end (.linkDefinition l)) :
    r.step e = r.core e := by
  unfold Renderer.step
  rcases filter_cases r e with ⟨l, a, rfl, _⟩ | ⟨l, l', evs, rest, rfl, _, _⟩ | ⟨l', evs, rest, _, ho', _⟩ | ⟨_, _, hf⟩
  · exact absurd rfl (hn.1 _ _)
  · exact absurd rfl (hn.2 _)
  · rw [ho] at ho'; simp at ho'
  · rcases hf with ⟨l, a, rfl, hf⟩ | ⟨l, rfl, hf⟩ | ⟨_, _, hf⟩
    · exact absurd rfl (h1 _ _)
    · exact absurd rfl (h2 _)
    · rw [hf, hi]; rfl

theorem Rel.tight_eq {st : List Container} {r : Renderer} {m : Mode} (h : Rel st r m) (hd : dead st = false) :
    r.tight = decide ((tightness st).head? = some true) := by
  unfold Renderer.tight
  rw [h.tig, live_not_dead hd]

/-- Opening an image outside images. -/
theorem start_image {r : Renderer} {u : Bytes} {t : SpanLinkType} {a : Attr.Attributes}
    (ha : SafeAttrs a) (h0 : r.imgAltText = 0) :
    ∃ o j, r.start (.image u t) a = .ok ({ r with imgAltText := 1, firstLine := false }, o) ∧
      ∀ S, Run2 .text S o o (.dquote (b! "img " ++ j)) S := by
  have hadd := (InTag.append (m := .text) (a := b! "<img") (n := b! "img") ⟨[], .inl rfl, rfl⟩
    (attrsOut_adds (c := .image u t) trivial _ (pairs_safe ha))).append
      (impliedAttrs_adds (c := .image u t) trivial ((Attr.uniquePairs a).map (·.1)))
  obtain ⟨j, hj, hs⟩ := hadd
  have hst : r.start (.image u t) a = .ok ({ r with imgAltText := 1, firstLine := false },
      [] ++ ([b! "<img"] ++ attrsOut (.image u t) (Attr.uniquePairs a) ++
        impliedAttrs (.image u t) ((Attr.uniquePairs a).map (·.1)) ++ [b! " alt=\""])) := by
    simp [Renderer.start, Renderer.startBlock, isBlock, h0, Renderer.openTag, Renderer.closeStart,
      Renderer.tagRest, isImage]
  have hj' : ∃ j', b! "img" ++ j ++ b! " alt=" = b! "img " ++ j' := by
    rcases hj with rfl | ⟨t, rfl⟩
    · exact ⟨b! "alt=", rfl⟩
    · exact ⟨t ++ b! " alt=", by simp⟩
  obtain ⟨j', hj'⟩ := hj'
  refine ⟨_, j', hst, fun S => Run2.diag (T := []) ?_ rfl⟩
  rw [← hj', List.nil_append, List.flatten_append, List.flatten_append, List.flatten_append, scan_append]
  simp only [List.flatten_cons, List.flatten_nil, List.append_nil]
  rw [hs]
  simp [scan, Mode.step]

/-- Closing an image outside images. -/
theorem close_image {r : Renderer} {u : Bytes} {t : SpanLinkType} {j : Bytes}
    (h0 : r.imgAltText = 1) (S : List Bytes) :
    ∃ o, r.close (.image u t) = .ok ({ r with imgAltText := 0, firstLine := false }, o) ∧
      Run2 (.dquote (b! "img " ++ j)) S o o .text S := by
  have hst : r.close (.image u t) = .ok ({ r with imgAltText := 0, firstLine := false },
      [] ++ ((if u.isEmpty then [] else [b! "\" src=\""] ++ writeAttr u) ++ [b! "\">"])) := by
    simp [Renderer.close, Renderer.closeBlock, isBlockContainer, h0, Renderer.closeTag, isImage, csub, Functor.map, Except.map]
  refine ⟨_, hst, ?_⟩
  rw [List.nil_append]
  split
  · refine Run2.diag (T := [b! "img " ++ j]) rfl ?_
    have : openAfter S (b! "img" ++ (32 :: j)) = _ := openAfter_start (S := S) (n := b! "img") (j := 32 :: j) ⟨by decide, by decide⟩ (.inr ⟨j, rfl⟩)
    simp only [openAfterAll]
    have h2 : b! "img " ++ j = b! "img" ++ (32 :: j) := by simp
    rw [h2, this]; rfl
  · refine Run2.diag (T := [b! "img " ++ j ++ b! " src="]) ?_ ?_
    · simp only [List.flatten_append, List.flatten_cons, List.flatten_nil, List.append_nil]
      rw [List.append_assoc, scan_append]
      have h1 : ∀ x, scan (.dquote x) (b! "\" src=\"") = ([], .dquote (x ++ b! " src=")) := by
        intro x; simp [scan, Mode.step]
      rw [h1, scan_append, scan_dquote (writeAttr_noQuote u)]
      rfl
    · have : openAfter S (b! "img" ++ (32 :: (j ++ b! " src="))) = _ := openAfter_start (S := S) (n := b! "img") (j := 32 :: (j ++ b! " src=")) ⟨by decide, by decide⟩ (.inr ⟨_, rfl⟩)
      simp only [openAfterAll]
      have h2 : b! "img " ++ j ++ b! " src=" = b! "img" ++ (32 :: (j ++ b! " src=")) := by simp
      rw [h2, this]; rfl

theorem tightness_cons (c : Container) (st : List Container) (h : ∀ k t, c ≠ .list k t) :
    tightness (c :: st) = tightness st := by
  cases c <;> first | rfl | exact absurd rfl (h _ _)

theorem openState_tight (r : Renderer) (c : Container) (st : List Container) (h : r.listTightness = tightness st) :
    (openState r c).listTightness = tightness (c :: st) := by
  cases c <;> first | exact h | (simp only [openState, tightness, h])

theorem closeState_tight (r : Renderer) (c : Container) (st : List Container) (h : r.listTightness = tightness (c :: st)) :
    (closeState r c).listTightness = tightness st := by
  cases c <;> first | exact h | (simp [closeState, tightness, h])

theorem dead_cons {c : Container} {st : List Container} (h1 : isDef c = false) (h2 : dead st = false) :
    dead (c :: st) = false := by
  unfold dead at *; rw [List.any_cons, h1, h2]; rfl

theorem dead_tail {c : Container} {st : List Container} (h : dead (c :: st) = false) : dead st = false := by
  unfold dead at *; rw [List.any_cons, Bool.or_eq_false_iff] at h; exact h.2

theorem closeState_fields (r : Renderer) (c : Container) :
    (closeState r c).raw = r.raw ∧ (closeState r c).imgAltText = r.imgAltText ∧
    (closeState r c).footnotes = r.footnotes ∧ (closeState r c).ignore = r.ignore ∧
    (closeState r c).indent = r.indent := by
  cases c <;> exact ⟨rfl, rfl, rfl, rfl, rfl⟩

theorem placed_cons {c : Container} {st : List Container} (h : Placed st)
    (hc : (isInline c || (st.head?.map holdsBlocks).getD false) = true) (hne : st ≠ []) : Placed (c :: st) := by
  cases st with
  | nil => exact absurd rfl hne
  | cons p st =>
    refine ⟨?_, h⟩
    simpa using hc

/-- A start event outside link definitions. -/
theorem step_start {st : List Container} {r : Renderer} {c : Container} {a : Attr.Attributes} {m : Mode}
    (h : Rel st r m) (hd : dead st = false) (hne : st ≠ []) (hdoc : c ≠ .document) (hfoot : ∀ l, c ≠ .footnote l)
    (hpl : (isInline c || (st.head?.map holdsBlocks).getD false) = true)
    (hs : SafeContainer c) (ha : SafeAttrs a) : StepOk st (c :: st) r (.start c a) m := by
  have hl := live_not_dead hd
  have hpn : pending r (.start c a) = [] := pending_none (by simp)
  have hP := placed_cons h.placed hpl hne
  have himg := h.img
  have htig := h.tig
  have hmode := h.mode
  rw [hl] at himg htig hmode
  by_cases hdef : ∃ l, c = .linkDefinition l
  · obtain ⟨l, rfl⟩ := hdef
    have hstep : r.step (.start (.linkDefinition l) a) = .ok ({ r with ignore := true }, []) := by
      unfold Renderer.step
      simp [Renderer.filter, h.opn]
    have hdd : dead (Container.linkDefinition l :: st) = true := rfl
    have hl2 : live (Container.linkDefinition l :: st) = st := by rw [live_dead hdd, hl]
    refine StepOk.same hstep ?_ hpn (by rw [hl2, hl])
    exact ⟨h.opn, h.ind, h.raw, by rw [hl2]; exact himg, by rw [hl2]; exact htig, hdd.symm,
      by rw [hl2]; exact hmode, hP⟩
  have hdef' : isDef c = false := by
    cases c <;> first | rfl | exact absurd ⟨_, rfl⟩ hdef
  have hdd : dead (c :: st) = false := dead_cons hdef' hd
  have hl2 : live (c :: st) = c :: st := live_not_dead hdd
  have hcore : r.step (.start c a) = r.start c a := by
    rw [step_core h.opn (by rw [h.ign, hd])]
    · rfl
    · exact ⟨fun l a' h' => by simp at h'; exact hfoot l h'.1, by simp⟩
    · intro l a' h'; simp at h'; exact hdef ⟨l, h'.1⟩
    · simp
  by_cases hi : images st = 0
  · -- outside images
    have hm : m = .text := by unfold ModeOk at hmode; rw [if_pos hi] at hmode; exact hmode
    subst hm
    have h0 : r.imgAltText = 0 := by rw [himg, hi]
    by_cases himc : isImage c = true
    · obtain ⟨u, t, rfl⟩ : ∃ u t, c = .image u t := by
        cases c <;> first | exact ⟨_, _, rfl⟩ | simp [isImage] at himc
      obtain ⟨o, j, hst, hr⟩ := start_image (u := u) (t := t) ha h0
      refine ⟨_, o, .dquote (b! "img " ++ j), by rw [hcore, hst], ?_, ?_⟩
      · refine ⟨h.opn, h.ind, h.raw, ?_, ?_, ?_, ?_, hP⟩
        · rw [hl2]; simp [images, isImage, hi]
        · rw [hl2]; exact htig
        · rw [hdd]; exact h.ign.trans hd
        · rw [hl2]; unfold ModeOk; simp [images, isImage]
      · intro rest
        rw [hpn, hl2, hl]
        have he : htmlStack (Container.image u t :: st) = htmlStack st := by simp [htmlStack, hi, elements]
        rw [he]
        exact hr _
    · have himc : isImage c = false := by simpa using himc
      have hstk : htmlStack (c :: st) = elements r.tight c ++ htmlStack st := by
        rw [h.tight_eq hd]; simp [htmlStack, hi]
      have himg2 : images (c :: st) = 0 := by simp [images, himc, hi]
      have hmode2 : ModeOk (c :: st) .text := by unfold ModeOk; rw [if_pos himg2]
      by_cases htg : Tagged c = true
      · by_cases hpt : c = .paragraph ∧ r.tight = true
        · -- paragraph in a tight list
          obtain ⟨rfl, ht⟩ := hpt
          obtain ⟨d, hdp⟩ := startBlock_fst r .paragraph
          have hst : r.start .paragraph a = .ok ({ r with depth := d }, (r.startBlock .paragraph).2) := by
            unfold Renderer.start
            have hc0 : ¬ ((decide (0 < (r.startBlock .paragraph).1.imgAltText) && !isImage .paragraph) = true) := by
              rw [hdp]; simp [h0]
            rw [if_neg hc0]
            have : (r.startBlock .paragraph).1.openTag .paragraph = .ok ({ r with depth := d }, none) := by
              rw [hdp]
              simp only [Renderer.tight, decide_eq_true_eq] at ht
              simp [Renderer.openTag, ht]
            rw [this]
          refine ⟨_, _, .text, by rw [hcore, hst], ?_, ?_⟩
          · refine ⟨h.opn, h.ind, h.raw, ?_, ?_, ?_, ?_, hP⟩
            · rw [hl2, himg2]; exact h0
            · rw [hl2]; exact htig
            · rw [hdd]; exact h.ign.trans hd
            · rw [hl2]; exact hmode2
          · intro rest
            rw [hpn, hl2, hl, hstk]
            have : elements r.tight .paragraph = [] := by simp [elements, ht]
            rw [this]
            exact Run2.quiet (startBlock_plain h.ind _).1 (startBlock_plain h.ind _).1
        · have hp : c = .paragraph → r.tight = false := by
            intro hc
            cases ht : r.tight
            · rfl
            · exact absurd ⟨hc, ht⟩ hpt
          obtain ⟨d, o, hst, _⟩ := start_tagged htg h.ind hs ha h0 hp ([] : List Bytes)
          have hof := openState_fields r c
          refine ⟨_, o, .text, by rw [hcore, hst], ?_, ?_⟩
          · refine ⟨by simp only [hof]; exact h.opn, by simp only [hof]; exact h.ind, by simp only [hof]; exact h.raw, ?_, ?_, ?_, ?_, hP⟩
            · rw [hl2, himg2]; simp only [hof]; exact h0
            · rw [hl2]; exact openState_tight r c st htig
            · rw [hdd]; simp only [hof]; exact h.ign.trans hd
            · rw [hl2]; exact hmode2
          · intro rest
            obtain ⟨d', o', hst', hr⟩ := start_tagged htg h.ind hs ha h0 hp (htmlStack st ++ rest)
            rw [hst] at hst'
            simp only [Except.ok.injEq, Prod.mk.injEq] at hst'
            obtain ⟨_, rfl⟩ := hst'
            rw [hpn, hl2, hl, hstk]
            simpa using hr
      · -- raw content
        obtain ⟨f, hf⟩ : ∃ f, c = .rawBlock f ∨ c = .rawInline f := by
          cases c <;> first
            | exact ⟨_, .inl rfl⟩ | exact ⟨_, .inr rfl⟩
            | (exfalso; simp [Tagged] at htg; done) | (exfalso; exact hdoc rfl) | (exfalso; exact hfoot _ rfl)
            | (exfalso; exact hdef ⟨_, rfl⟩) | (exfalso; simp [isImage] at himc; done)
        obtain ⟨d, hdp⟩ := startBlock_fst r c
        have hraw : r.start c a = .ok ({ r with depth := d, raw := .other }, (r.startBlock c).2) := by
          unfold Renderer.start
          have hc0 : ¬ ((decide (0 < (r.startBlock c).1.imgAltText) && !isImage c) = true) := by
            rw [hdp]; simp [h0]
          rw [if_neg hc0]
          have : (r.startBlock c).1.openTag c = .ok ({ r with depth := d, raw := .other }, none) := by
            rw [hdp]
            rcases hf with rfl | rfl <;> (simp only [SafeContainer] at hs; simp [Renderer.openTag, hs])
          rw [this]
        refine ⟨_, _, .text, by rw [hcore, hraw], ?_, ?_⟩
        · refine ⟨h.opn, h.ind, by simp, ?_, ?_, ?_, ?_, hP⟩
          · rw [hl2, himg2]; exact h0
          · rw [hl2, tightness_cons c st (by rcases hf with rfl | rfl <;> simp)]; exact htig
          · rw [hdd]; exact h.ign.trans hd
          · rw [hl2]; exact hmode2
        · intro rest
          rw [hpn, hl2, hl, hstk]
          have : elements r.tight c = [] := by rcases hf with rfl | rfl <;> rfl
          rw [this]
          exact Run2.quiet (startBlock_plain h.ind _).1 (startBlock_plain h.ind _).1
  · -- inside an image
    have hin : isInline c = true := by
      cases hic : isInline c
      · have := all_images (placed_block hP hic)
        exact absurd this hi
      · rfl
    have hif := inline_facts hin
    have hsb : r.startBlock c = (r, []) := by unfold Renderer.startBlock; rw [hif.1]; rfl
    have hpos : 0 < r.imgAltText := by rw [himg]; omega
    have hstk : htmlStack (c :: st) = htmlStack st := by
      have : 0 < images st := by omega
      simp [htmlStack, this]
    have hnimg : images (c :: st) ≠ 0 := by simp only [images]; omega
    have hmode2 : ModeOk (c :: st) m := by
      unfold ModeOk at *
      rw [if_neg hi] at hmode
      rw [if_neg hnimg]; exact hmode
    by_cases himc : isImage c = true
    · obtain ⟨u, t, rfl⟩ : ∃ u t, c = .image u t := by
        cases c <;> first | exact ⟨_, _, rfl⟩ | simp [isImage] at himc
      have hst : r.start (.image u t) a = .ok ({ r with imgAltText := r.imgAltText + 1 }, []) := by
        unfold Renderer.start
        rw [hsb]
        have : r.imgAltText ≠ 0 := by omega
        simp [isImage, Renderer.openTag, this]
      refine StepOk.same (by rw [hcore, hst]) ?_ hpn (by rw [hl2, hl, hstk])
      refine ⟨h.opn, h.ind, h.raw, ?_, ?_, ?_, ?_, hP⟩
      · rw [hl2]; simp only [images, isImage, if_true]; rw [himg]; omega
      · rw [hl2, hif.2.2.2.1]; exact htig
      · rw [hdd]; exact h.ign.trans hd
      · rw [hl2]; exact hmode2
    · have himc : isImage c = false := by simpa using himc
      have hst : r.start c a = .ok (r, []) := by
        unfold Renderer.start
        rw [hsb]
        simp [himc, hpos]
      refine StepOk.same (by rw [hcore, hst]) ?_ hpn (by rw [hl2, hl, hstk])
      refine ⟨h.opn, h.ind, h.raw, ?_, ?_, ?_, ?_, hP⟩
      · rw [hl2]; simp [images, himc]; exact himg
      · rw [hl2, hif.2.2.2.1]; exact htig
      · rw [hdd]; exact h.ign.trans hd
      · rw [hl2]; exact hmode2

theorem elements_tight {c : Container} (h : c ≠ .paragraph) (b b' : Bool) : elements b c = elements b' c := by
  cases c with
  | list k t => cases k <;> rfl
  | tableCell a x => cases x <;> rfl
  | paragraph => exact absurd rfl h
  | _ => rfl

/-- An end event outside link definitions. -/
theorem step_end {st : List Container} {r : Renderer} {c : Container} {m : Mode}
    (h : Rel (c :: st) r m) (hd : dead (c :: st) = false) (hdoc : c ≠ .document)
    (hfoot : ∀ l, c ≠ .footnote l) : StepOk (c :: st) st r (.end c) m := by
  have hl := live_not_dead hd
  have hd2 : dead st = false := dead_tail hd
  have hl2 : live st = st := live_not_dead hd2
  have himg := h.img
  have htig := h.tig
  have hmode := h.mode
  rw [hl] at himg htig hmode
  have hdef : isDef c = false := by
    unfold dead at hd; rw [List.any_cons, Bool.or_eq_false_iff] at hd; exact hd.1
  have hcore : r.step (.end c) = r.close c := by
    rw [step_core h.opn (by rw [h.ign, hd])]
    · rfl
    · exact ⟨by simp, fun l h' => by simp at h'; exact hfoot l h'⟩
    · simp
    · intro l h'; simp at h'; rw [h'] at hdef; simp [isDef] at hdef
  by_cases himc : isImage c = true
  · obtain ⟨u, t, rfl⟩ : ∃ u t, c = .image u t := by
      cases c <;> first | exact ⟨_, _, rfl⟩ | simp [isImage] at himc
    have hpn : pending r (.end (.image u t)) = [] := pending_none (by simp)
    have him : r.imgAltText = images st + 1 := by rw [himg]; simp [images, isImage]; omega
    have hstk : htmlStack (Container.image u t :: st) = htmlStack st := by simp [htmlStack, elements]
    have hig : r.ignore = dead st := by rw [h.ign, hd, hd2]
    by_cases hi : images st = 0
    · unfold ModeOk at hmode
      have : images (Container.image u t :: st) ≠ 0 := by simp [images, isImage]
      rw [if_neg this] at hmode
      obtain ⟨j, rfl⟩ := hmode
      obtain ⟨o, hst, _⟩ := close_image (u := u) (t := t) (j := j) (by rw [him, hi]) ([] : List Bytes)
      refine ⟨_, o, .text, by rw [hcore, hst], ?_, ?_⟩
      · refine ⟨h.opn, h.ind, h.raw, ?_, ?_, ?_, ?_, h.placed.tail⟩
        · rw [hl2, hi]
        · rw [hl2]; exact htig
        · exact hig
        · rw [hl2]; unfold ModeOk; rw [if_pos hi]
      · intro rest
        obtain ⟨o', hst', hr⟩ := close_image (u := u) (t := t) (j := j) (by rw [him, hi]) (htmlStack st ++ rest)
        rw [hst] at hst'
        simp only [Except.ok.injEq, Prod.mk.injEq, true_and] at hst'
        subst hst'
        rw [hpn, hl2, hl, hstk]; exact hr
    · have hst : r.close (.image u t) = .ok ({ r with imgAltText := images st, firstLine := false }, []) := by
        have h1 : r.imgAltText ≠ 1 := by omega
        have h3 : 1 ≤ r.imgAltText := by omega
        have h4 : r.imgAltText - 1 = images st := by omega
        simp [Renderer.close, Renderer.closeBlock, isBlockContainer, Renderer.closeTag, isImage, csub,
          Functor.map, Except.map, h1, h3, h4]
      refine StepOk.same (by rw [hcore, hst]) ?_ hpn (by rw [hl2, hl, hstk])
      refine ⟨h.opn, h.ind, h.raw, ?_, ?_, ?_, ?_, h.placed.tail⟩
      · rw [hl2]
      · rw [hl2]; exact htig
      · exact hig
      · rw [hl2]
        unfold ModeOk at *
        have : images (Container.image u t :: st) ≠ 0 := by simp [images, isImage]
        rw [if_neg this] at hmode
        rw [if_neg hi]; exact hmode
  have himc : isImage c = false := by simpa using himc
  have him : images (c :: st) = images st := by simp [images, himc]
  rw [him] at himg
  have hig : r.ignore = dead st := by rw [h.ign, hd, hd2]
  have hmode2 : ModeOk st m := by unfold ModeOk at *; rw [him] at hmode; exact hmode
  by_cases hi : images st = 0
  · have hm : m = .text := by unfold ModeOk at hmode2; rw [if_pos hi] at hmode2; exact hmode2
    subst hm
    have h0 : r.imgAltText = 0 := by rw [himg, hi]
    obtain ⟨d, hdp⟩ := closeBlock_fst r c
    have hc0 : ¬ ((decide (0 < (r.closeBlock c).1.imgAltText) && !isImage c) = true) := by
      rw [hdp]; simp [h0]
    have hqlay : ∀ S, Run2 .text S (r.closeBlock c).2 (r.closeBlock c).2 .text S :=
      fun S => Run2.quiet (closeBlock_plain h.ind c).1 (closeBlock_plain h.ind c).1
    by_cases htg : Tagged c = true
    · by_cases hpar : c = .paragraph
      · subst hpar
        have ht2 : tightness (Container.paragraph :: st) = tightness st := rfl
        have hteq : r.tight = decide ((tightness st).head? = some true) := by
          unfold Renderer.tight; rw [htig, ht2]
        have hstk : htmlStack (Container.paragraph :: st) = elements r.tight .paragraph ++ htmlStack st := by
          rw [hteq]; simp [htmlStack, hi]
        have hcb : r.closeBlock .paragraph = (r, []) := rfl
        cases ht : r.tight with
        | true =>
          have hpn : pending r (.end .paragraph) = [] := by simp [pending, ht]
          have hst : r.close .paragraph = .ok (r, []) := by
            unfold Renderer.close
            rw [if_neg hc0, hcb]
            have : r.closeTag .paragraph = .ok (r, none) := by
              simp only [Renderer.tight, decide_eq_true_eq] at ht
              simp [Renderer.closeTag, ht]
            rw [this]
          refine StepOk.same (by rw [hcore, hst]) ?_ hpn (by rw [hl2, hl, hstk, ht]; simp [elements])
          refine ⟨h.opn, h.ind, h.raw, by rw [hl2]; exact himg, by rw [hl2]; exact htig, hig, by rw [hl2]; exact hmode2, h.placed.tail⟩
        | false =>
          cases hep : r.footnotes.inEpilogue with
          | true =>
            have hpn : pending r (.end .paragraph) = [b! "p"] := by simp [pending, ht, hep]
            have hst : r.close .paragraph = .ok ({ r with firstLine := false }, []) := by
              unfold Renderer.close
              rw [if_neg hc0, hcb]
              have : r.closeTag .paragraph = .ok (r, some []) := by
                simp only [Renderer.tight, decide_eq_false_iff_not] at ht
                simp [Renderer.closeTag, ht, hep]
              rw [this]; rfl
            refine ⟨_, _, .text, by rw [hcore, hst], ?_, ?_⟩
            · exact ⟨h.opn, h.ind, h.raw, by rw [hl2]; exact himg, by rw [hl2]; exact htig, hig, by rw [hl2]; exact hmode2, h.placed.tail⟩
            · intro rest
              rw [hpn, hl2, hl, hstk, ht]
              exact Run2.nil _ _
          | false =>
            have hpn : pending r (.end .paragraph) = [] := by simp [pending, hep]
            have key : ∀ S, ∃ o2, r.closeTag .paragraph = .ok (closeState r .paragraph, some o2) ∧
                Run2 .text (elements r.tight .paragraph ++ S) o2 o2 .text S :=
              fun S => closeTag_tagged rfl (fun _ => ⟨ht, hep⟩) S
            obtain ⟨o2, ho2, _⟩ := key []
            have hst : r.close .paragraph = .ok ({ r with firstLine := false }, [] ++ o2) := by
              unfold Renderer.close
              rw [if_neg hc0, hcb]
              simp only [ho2]; rfl
            refine ⟨_, _, .text, by rw [hcore, hst], ?_, ?_⟩
            · exact ⟨h.opn, h.ind, h.raw, by rw [hl2]; exact himg, by rw [hl2]; exact htig, hig, by rw [hl2]; exact hmode2, h.placed.tail⟩
            · intro rest
              obtain ⟨o3, ho3, hr⟩ := key (htmlStack st ++ rest)
              rw [ho2] at ho3
              simp only [Except.ok.injEq, Prod.mk.injEq, Option.some.injEq, true_and] at ho3
              subst ho3
              rw [hpn, hl2, hl, hstk]
              simpa using hr
      · have hpn : pending r (.end c) = [] := pending_none (by simpa using hpar)
        have hstk : htmlStack (c :: st) = elements r.tight c ++ htmlStack st := by
          simp only [htmlStack, hi]
          rw [elements_tight hpar r.tight (decide ((tightness st).head? = some true))]; simp
        have key : ∀ S, ∃ o2, (r.closeBlock c).1.closeTag c = .ok (closeState (r.closeBlock c).1 c, some o2) ∧
            Run2 .text (elements (r.closeBlock c).1.tight c ++ S) o2 o2 .text S :=
          fun S => closeTag_tagged htg (fun h' => absurd h' hpar) S
        have htt : (r.closeBlock c).1.tight = r.tight := by rw [hdp]; rfl
        obtain ⟨o2, ho2, _⟩ := key []
        have hst : r.close c = .ok ({ closeState (r.closeBlock c).1 c with firstLine := false }, (r.closeBlock c).2 ++ o2) := by
          unfold Renderer.close
          rw [if_neg hc0]
          simp only [ho2]
        have hcf := closeState_fields (r.closeBlock c).1 c
        have hct := closeState_tight (r.closeBlock c).1 c st (by rw [hdp]; exact htig)
        refine ⟨_, _, .text, by rw [hcore, hst], ?_, ?_⟩
        · refine ⟨?_, ?_, ?_, ?_, ?_, ?_, by rw [hl2]; exact hmode2, h.placed.tail⟩
          · show (closeState (r.closeBlock c).1 c).footnotes.open_ = []
            rw [hcf.2.2.1, hdp]; exact h.opn
          · show SafeIndent (closeState (r.closeBlock c).1 c).indent
            rw [hcf.2.2.2.2, hdp]; exact h.ind
          · show (closeState (r.closeBlock c).1 c).raw ≠ _
            rw [hcf.1, hdp]; exact h.raw
          · show (closeState (r.closeBlock c).1 c).imgAltText = _
            rw [hcf.2.1, hdp, hl2]; exact himg
          · rw [hl2]; exact hct
          · show (closeState (r.closeBlock c).1 c).ignore = _
            rw [hcf.2.2.2.1, hdp]; exact hig
        · intro rest
          obtain ⟨o3, ho3, hr⟩ := key (htmlStack st ++ rest)
          rw [ho2] at ho3
          simp only [Except.ok.injEq, Prod.mk.injEq, Option.some.injEq, true_and] at ho3
          subst ho3
          rw [hpn, hl2, hl, hstk]
          rw [htt] at hr
          refine (hqlay _).append ?_
          simpa using hr
    · obtain ⟨f, hf⟩ : ∃ f, c = .rawBlock f ∨ c = .rawInline f := by
        cases c <;> first
          | exact ⟨_, .inl rfl⟩ | exact ⟨_, .inr rfl⟩
          | (exfalso; simp [Tagged] at htg; done) | (exfalso; exact hdoc rfl) | (exfalso; exact hfoot _ rfl)
          | (exfalso; simp [isDef] at hdef; done) | (exfalso; simp [isImage] at himc; done)
      have hpn : pending r (.end c) = [] := pending_none (by rcases hf with rfl | rfl <;> simp)
      have hst : r.close c = .ok ({ r with raw := .none, firstLine := false }, []) := by
        rcases hf with rfl | rfl <;>
          simp [Renderer.close, Renderer.closeBlock, isBlockContainer, h0, Renderer.closeTag]
      have hstk : htmlStack (c :: st) = htmlStack st := by
        rcases hf with rfl | rfl <;> simp [htmlStack, elements]
      refine StepOk.same (by rw [hcore, hst]) ?_ hpn (by rw [hl2, hl, hstk])
      refine ⟨h.opn, h.ind, by simp, by rw [hl2]; exact himg, ?_, hig, by rw [hl2]; exact hmode2, h.placed.tail⟩
      rw [hl2]
      rw [tightness_cons c st (by rcases hf with rfl | rfl <;> simp)] at htig
      exact htig
  · -- inside an image
    have hin : isInline c = true := by
      cases hic : isInline c
      · exact absurd (all_images (placed_block h.placed hic)) hi
      · rfl
    have hif := inline_facts hin
    have hpn : pending r (.end c) = [] := pending_none (by simpa using hif.2.2.2.2.1)
    have hst : r.close c = .ok (r, []) := by
      have hpos : 0 < r.imgAltText := by rw [himg]; omega
      simp [Renderer.close, Renderer.closeBlock, hif.2.1, himc, hpos]
    have hstk : htmlStack (c :: st) = htmlStack st := by
      have : 0 < images st := by omega
      simp [htmlStack, this]
    refine StepOk.same (by rw [hcore, hst]) ?_ hpn (by rw [hl2, hl, hstk])
    refine ⟨h.opn, h.ind, h.raw, by rw [hl2]; exact himg, ?_, hig, by rw [hl2]; exact hmode2, h.placed.tail⟩
    rw [hl2]
    rw [hif.2.2.2.1] at htig; exact htig

/-- Other events outside link definitions, except texts. -/
theorem step_other {st st' : List Container} {r : Renderer} {e : Event} {m : Mode}
    (h : Rel st r m) (hd : dead st = false) (hs : SafeEvent e) (hne : nest1 st e = some st')
    (h1 : ∀ c a, e ≠ .start c a) (h2 : ∀ c, e ≠ .end c) (h3 : ∀ s, e ≠ .str s) : StepOk st st' r e m := by
  have hpn : pending r e = [] := pending_none (h2 _)
  have hcore : r.step e = r.core e :=
    step_core h.opn (by rw [h.ign, hd]) ⟨fun l a => h1 _ _, fun l => h2 _⟩ (fun l a => h1 _ _) (fun l => h2 _)
  have hl := live_not_dead hd
  have hq : ∀ o : Bytes, Plain o → Quiet m o := fun o ho => Quiet.of h.quietMode ho.1 ho.2
  have hb : ∀ o : Out, r.core e = .ok ({ r with firstLine := false }, o) → st' = st → Plain o.flatten → StepOk st st' r e m := by
    intro o ho hst hp
    subst hst
    exact StepOk.plain (q := { r with firstLine := false }) (by rw [hcore, ho]) (h.mono h.opn rfl rfl rfl rfl rfl) hpn (hq _ hp)
  cases e with
  | start c a => exact absurd rfl (h1 c a)
  | «end» c => exact absurd rfl (h2 c)
  | str s => exact absurd rfl (h3 s)
  | footnoteReference l =>
    simp only [nest1, Option.some.injEq] at hne
    subst hne
    have hop : (r.footnotes.reference l).2.open_ = [] := by rw [(reference_work r.footnotes l).2.1]; exact h.opn
    refine ⟨{ (r.footnoteReference l).1 with firstLine := false }, (r.footnoteReference l).2, m,
      by rw [hcore]; rfl, h.mono hop rfl rfl rfl rfl rfl, fun rest => ?_⟩
    rw [hpn, List.nil_append]
    simp only [Renderer.footnoteReference]
    split
    · rename_i h0
      have hmode := h.mode
      unfold ModeOk at hmode
      rw [← h.img, if_pos h0] at hmode
      subst hmode
      generalize (r.footnotes.reference l).1 = n
      have hdig : c! '"' ∉ decimal n := fun hx => (digit_facts _ (decimal_digits _ _ hx)).2.1.2.1 rfl
      have hlt : c! '<' ∉ decimal n := fun hx => (digit_facts _ (decimal_digits _ _ hx)).1 rfl
      refine Run2.diag (T := [b! "a id= href= role=", b! "sup", b! "/sup", b! "/a"]) ?_ ?_
      · simp only [List.flatten_cons, List.flatten_nil, List.append_nil]
        rw [scan_append]
        rw [show scan .text (b! "<a id=\"fnref") = ([], .dquote (b! "a id=")) from rfl]
        rw [scan_append, scan_dquote hdig]
        rw [scan_append]
        rw [show scan (.dquote (b! "a id=")) (b! "\" href=\"#fn") = ([], .dquote (b! "a id= href=")) from rfl]
        rw [scan_append, scan_dquote hdig, scan_append]
        rw [show scan (.dquote (b! "a id= href=")) (b! "\" role=\"doc-noteref\"><sup>") =
          ([b! "a id= href= role=", b! "sup"], .text) from rfl]
        rw [scan_append, scan_text hlt]
        rfl
      · simp [openAfterAll, openAfter, voidElements, isWs, List.takeWhile]
    · exact Run2.nil _ _
  | symbol s =>
    simp only [nest1, Option.some.injEq] at hne
    refine hb _ rfl hne.symm ?_
    simp only [List.flatten_cons, List.flatten_nil, List.append_nil]
    exact Plain.append ⟨by decide, by decide⟩ (Plain.append hs ⟨by decide, by decide⟩)
  | hardbreak =>
    simp only [nest1, Option.some.injEq] at hne
    subst hne
    obtain ⟨d, hdp⟩ := block_fst r 0
    refine ⟨_, _, m, by rw [hcore]; rfl, ?_, fun rest => ?_⟩
    · exact h.mono (by simp only [hdp]; exact h.opn) (by simp only [hdp]) (by simp only [hdp])
        (by simp only [hdp]) (by simp only [hdp]) (by simp only [hdp])
    · rw [hpn, List.nil_append]
      refine Run2.append (m1 := m) (S1 := htmlStack (live st) ++ rest) ?_ (Run2.quiet (hq _ (block_plain h.ind 0)) (hq _ (block_plain h.ind 0)))
      rcases h.quietMode with rfl | ⟨a, rfl⟩
      · exact Run2.diag (T := [b! "br"]) rfl rfl
      · exact Run2.diag (T := []) rfl rfl
  | softbreak =>
    simp only [nest1, Option.some.injEq] at hne
    refine hb _ rfl hne.symm ?_
    rw [List.flatten_append]
    exact Plain.append ⟨by decide, by decide⟩ (indentOut_plain h.ind)
  | thematicBreak a =>
    simp only [nest1] at hne
    split at hne
    · rename_i hhb
      simp only [Option.some.injEq] at hne
      subst hne
      have hall : ∀ x ∈ st, holdsBlocks x = true := by
        cases hh : st.head? with
        | none => rw [hh] at hhb; simp at hhb
        | some c => rw [hh] at hhb; exact placed_all h.placed c hh (by simpa using hhb)
      have hi := all_images hall
      have hmode := h.mode
      unfold ModeOk at hmode
      rw [hl, if_pos hi] at hmode
      subst hmode
      obtain ⟨d, hdp⟩ := block_fst r 0
      refine ⟨_, _, .text, by rw [hcore]; rfl, ?_, fun rest => ?_⟩
      · exact h.mono (by simp only [hdp]; exact h.opn) (by simp only [hdp]) (by simp only [hdp])
          (by simp only [hdp]) (by simp only [hdp]) (by simp only [hdp])
      · rw [hpn, List.nil_append, List.append_assoc, List.append_assoc]
        refine (Run2.quiet (m := .text) (block_plain h.ind 0).1 (block_plain h.ind 0).1).append ?_
        have hadd := InTag.append (m := .text) (a := b! "<hr") (n := b! "hr") ⟨[], .inl rfl, rfl⟩
          (plainAttrs_adds _ (pairs_safe hs))
        obtain ⟨j, hj, hsc⟩ := tag_close hadd
        refine Run2.diag (T := [b! "hr" ++ j]) ?_ ?_
        · simpa using hsc
        · simp only [openAfterAll]
          rw [openAfter_start ⟨by decide, by decide⟩ hj]; rfl
    · simp at hne
  | _ =>
    simp only [nest1, Option.some.injEq] at hne
    exact hb _ rfl hne.symm ⟨by decide, by decide⟩

/-- A text outside link definitions; scanning another text instead gives the same. -/
theorem step_str {st : List Container} {r r' : Renderer} {m : Mode} (h : Rel st r m) (hd : dead st = false)
    (s s' : Bytes) (h1 : r'.raw = r.raw) (h2 : r'.imgAltText = r.imgAltText) :
    r.step (.str s) = .ok ({ r with firstLine := false }, r.str s) ∧
    ∀ S, Run2 m S (r.str s) (r'.str s') m S := by
  constructor
  · rw [step_core h.opn (by rw [h.ign, hd]) ⟨by simp, by simp⟩ (by simp) (by simp)]
    rfl
  · intro S
    have hm := h.mode
    unfold ModeOk at hm
    unfold Renderer.str
    rw [h1, h2]
    cases hr : r.raw with
    | html => exact absurd hr h.raw
    | other => exact Run2.nil _ _
    | none =>
      simp only
      rw [← h.img] at hm
      split
      · rename_i hpos
        rw [if_neg (by omega)] at hm
        obtain ⟨j, rfl⟩ := hm
        exact Run2.quiet (writeAttr_noQuote s) (writeAttr_noQuote s')
      · rename_i hpos
        rw [if_pos (by omega)] at hm
        subst hm
        exact Run2.quiet (writeText_noLt s) (writeText_noLt s')

end Jotdown.Html
