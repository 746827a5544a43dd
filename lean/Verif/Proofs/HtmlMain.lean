import Verif.Proofs.HtmlAhead
/-! # The renderer at the end of a well-nested document -/
namespace Jotdown.Html
open Jotdown

/-- Images open after an event. -/
def imgStep (n : Nat) : Event → Nat
  | .start (.image ..) _ => n + 1
  | .end (.image ..) => n - 1
  | _ => n

theorem block_img (r : Renderer) (c : Int) : (r.block c).1.imgAltText = r.imgAltText := by
  obtain ⟨d, hd⟩ := block_fst r c; rw [hd]

theorem openTag_img {r q : Renderer} {c : Container} {a : Attr.Attributes} {o : Option Out} (h : r.openTag c = .ok (q, o)) :
    q.imgAltText = imgStep r.imgAltText (.start c a) := by
  cases c with
  | tableCell al hd => cases hd <;> (simp [Renderer.openTag] at h; rw [← h.1]; rfl)
  | _ =>
    simp [Renderer.openTag] at h <;>
    first
      | (rw [← h.1]; done)
      | (rw [← h.1]; rfl)

theorem closeTag_img {r q : Renderer} {c : Container} {o : Option Out} (h : r.closeTag c = .ok (q, o)) :
    q.imgAltText = imgStep r.imgAltText (.end c) := by
  cases c with
  | tableCell al hd => cases hd <;> (simp [Renderer.closeTag] at h; rw [← h.1]; rfl)
  | image u t =>
    unfold Renderer.closeTag at h
    obtain ⟨x, hx, h⟩ := bind_ok h
    unfold csub at hx
    split at hx
    · simp [pure, Except.pure] at hx; simp [pure, Except.pure] at h; rw [← h.1, ← hx]; rfl
    · simp [panic] at hx
  | _ =>
    simp [Renderer.closeTag] at h <;>
    first
      | (rw [← h.1]; done)
      | (rw [← h.1]; rfl)
      | (split at h <;> simp at h <;> (rw [← h.1]; rfl))

theorem closeStart_img (r : Renderer) (c : Container) : (r.closeStart c).1.imgAltText = r.imgAltText := by
  cases c <;> first | rfl | exact block_img ..

theorem core_img {r q : Renderer} {e : Event} {o : Out} (h : r.core e = .ok (q, o)) :
    q.imgAltText = imgStep r.imgAltText e := by
  cases e with
  | start c a =>
    simp only [Renderer.core, Renderer.start] at h
    have h0 : (r.startBlock c).1.imgAltText = r.imgAltText := by
      unfold Renderer.startBlock; split
      · exact block_img ..
      · rfl
    split at h
    · rename_i hc
      simp only [Except.ok.injEq] at h
      rw [h] at h0
      cases c <;> first | exact h0 | simp [isImage] at hc
    · split at h
      · simp at h
      · rename_i ht
        simp at h; rw [← h.1, openTag_img (a := a) ht, h0]
      · rename_i ht
        simp at h; rw [← h.1, closeStart_img, openTag_img (a := a) ht, h0]
  | «end» c =>
    simp only [Renderer.core, Renderer.close] at h
    have h0 : (r.closeBlock c).1.imgAltText = r.imgAltText := by
      unfold Renderer.closeBlock; split
      · exact block_img ..
      · rfl
    split at h
    · rename_i hc
      simp only [Except.ok.injEq] at h
      rw [h] at h0
      cases c <;> first | exact h0 | simp [isImage] at hc
    · split at h
      · simp at h
      · rename_i ht
        simp at h; rw [← h.1, closeTag_img ht, h0]
      · rename_i ht
        simp at h; rw [← h.1, closeTag_img ht, h0]
  | _ => simp [Renderer.core, Renderer.footnoteReference] at h; rw [← h.1]; simp [imgStep, block_img]

/-- What an event does to the images of a stack. -/
theorem stack_step {st st' : List Container} {e : Event} (hp : Placed st) (hne : nest1 st e = some st')
    (h1 : ∀ l a, e ≠ .start (.linkDefinition l) a) (h2 : ∀ l, e ≠ .end (.linkDefinition l)) :
    dead st' = dead st ∧
    images (live st') = if dead st then images (live st) else imgStep (images (live st)) e := by
  cases e with
  | start c a =>
    simp only [nest1] at hne
    split at hne
    · simp at hne
    · split at hne
      · rename_i hc
        simp only [Option.some.injEq] at hne; subst hne
        have hd : isDef c = false := by cases c <;> first | rfl | exact absurd rfl (h1 _ _)
        have e1 : dead (c :: st) = dead st := by simp [dead, hd]
        refine ⟨e1, ?_⟩
        cases hds : dead st with
        | true => rw [live_dead (by rw [e1, hds])]; rfl
        | false =>
          rw [live_not_dead (by rw [e1, hds]), live_not_dead hds]
          cases c <;> simp [images, isImage, imgStep]
          omega
      · simp at hne
  | «end» c =>
    cases st with
    | nil => simp [nest1] at hne
    | cons d st =>
      simp only [nest1] at hne
      split at hne
      · rename_i hc
        simp only [Option.some.injEq] at hne; subst hne
        obtain ⟨rfl, _⟩ := hc
        have hd : isDef c = false := by cases c <;> first | rfl | exact absurd rfl (h2 _)
        have e1 : dead (c :: st) = dead st := by simp [dead, hd]
        refine ⟨e1.symm, ?_⟩
        cases hds : dead st with
        | true => rw [e1, hds, live_dead (by rw [e1, hds])]; rfl
        | false =>
          rw [e1, hds, live_not_dead (st := c :: st) (by rw [e1, hds]), live_not_dead hds]
          cases c <;> simp [images, isImage, imgStep]
      · simp at hne
  | thematicBreak a =>
    simp only [nest1] at hne; split at hne <;> simp at hne; subst hne
    exact ⟨rfl, by simp [imgStep]⟩
  | _ => simp only [nest1, Option.some.injEq] at hne; subst hne; exact ⟨rfl, by simp [imgStep]⟩

/-- Relation between the stack of containers and the renderer outside footnotes. -/
structure MInv (st base : List Container) (r : Renderer) : Prop where
  opens : Opens (fun _ => True) r.footnotes.open_ st base
  placed : Placed base
  bot : Bottom base
  ign : r.ignore = dead base
  img : r.imgAltText = images (live base)

theorem MInv.step {st st' base : List Container} {r q : Renderer} {e : Event} {o : Out}
    (h : MInv st base r) (hne : nest1 st e = some st') (hq : r.step e = .ok (q, o)) :
    ∃ base', MInv st' base' q := by
  obtain ⟨hop, hpl, hbot, hign, himg⟩ := h
  unfold Renderer.step at hq
  rcases filter_cases r e with ⟨l, a, rfl, hf⟩ | ⟨l, l', evs, rest, rfl, ho, hf⟩ | ⟨l', evs, rest, hn, ho, hf⟩ | ⟨ho, h1, hf⟩
  · have hst : st' = .footnote l :: st := by
      simp only [nest1] at hne
      split at hne
      · simp at hne
      · split at hne <;> simp at hne; exact hne.symm
    subst hst
    rw [hf] at hq
    simp only [Except.ok.injEq, Prod.mk.injEq] at hq
    rw [← hq.1]
    exact ⟨base, Opens.foot (seg := []) l [] hop rfl (by intro c hc; simp at hc) (by simp), hpl, hbot, hign, himg⟩
  · rw [hf] at hq
    simp only [Except.ok.injEq, Prod.mk.injEq] at hq
    rw [← hq.1]
    rw [ho] at hop
    generalize hopen : (l', evs) :: rest = op at hop
    cases hop with
    | base => simp at hopen
    | foot l2 evs2 seg hh hn2 hs2 he2 =>
      rename_i op2 st0
      simp only [List.cons.injEq, Prod.mk.injEq] at hopen
      obtain ⟨⟨rfl, rfl⟩, rfl⟩ := hopen
      have hseg : seg = [] := by
        cases seg with
        | nil => rfl
        | cons d seg =>
          simp only [List.cons_append, nest1] at hne
          split at hne
          · rename_i hc
            exact absurd hc.1.symm (hs2 d (List.mem_cons_self ..) l)
          · simp at hne
      subst hseg
      simp only [List.nil_append, nest1] at hne
      split at hne
      · simp only [Option.some.injEq] at hne
        subst hne
        exact ⟨base, hh, hpl, hbot, hign, himg⟩
      · simp at hne
  · rw [hf] at hq
    simp only [Except.ok.injEq, Prod.mk.injEq] at hq
    rw [← hq.1]
    rw [ho] at hop
    generalize hopen : (l', evs) :: rest = op at hop
    cases hop with
    | base => simp at hopen
    | foot l2 evs2 seg hh hn2 hs2 he2 =>
      rename_i op2 st0
      simp only [List.cons.injEq, Prod.mk.injEq] at hopen
      obtain ⟨⟨rfl, rfl⟩, rfl⟩ := hopen
      obtain ⟨seg', rfl, h2, h3⟩ := nest1_above hn hs2 hne
      refine ⟨base, ?_, hpl, hbot, hign, himg⟩
      refine Opens.foot l' (evs ++ [e]) seg' hh ?_ h3 ?_
      · rw [nest_append, hn2]
        simp only [Option.bind, nest, h2]
      · intro x hx
        rcases List.mem_append.1 hx with hx | hx
        · exact he2 x hx
        · simp at hx; subst hx; exact ⟨hn, trivial⟩
  · rw [ho] at hop
    generalize hopen : ([] : List (Bytes × List Event)) = op at hop
    cases hop with
    | foot => simp at hopen
    | base _ hnb =>
      have hn : NoFoot e := by
        refine ⟨h1, ?_⟩
        rintro l rfl
        cases st with
        | nil => simp [nest1] at hne
        | cons d st =>
          simp only [nest1] at hne
          split at hne
          · rename_i hc; exact absurd hc.1.symm (hnb d (List.mem_cons_self ..) l)
          · simp at hne
      have hno' : NoNote st' := by
        cases e with
        | start c a =>
          simp only [nest1] at hne
          split at hne
          · simp at hne
          · split at hne <;> simp at hne
            subst hne
            intro x hx l'
            rcases List.mem_cons.1 hx with rfl | hx
            · rintro rfl; exact hn.1 l' a rfl
            · exact hnb x hx l'
        | «end» c =>
          cases st with
          | nil => simp [nest1] at hne
          | cons d st =>
            simp only [nest1] at hne
            split at hne <;> simp at hne
            subst hne
            exact fun x hx => hnb x (List.mem_cons_of_mem _ hx)
        | thematicBreak a => simp only [nest1] at hne; split at hne <;> simp at hne; subst hne; exact hnb
        | _ => simp only [nest1, Option.some.injEq] at hne; subst hne; exact hnb
      have hpl' := hpl.nest1 hbot.ne hne
      have hbot' := hbot.nest1 hne
      rcases hf with ⟨l, a, rfl, hf⟩ | ⟨l, rfl, hf⟩ | ⟨h2, h3, hf⟩
      · rw [hf] at hq
        simp only [Except.ok.injEq, Prod.mk.injEq] at hq
        rw [← hq.1]
        simp only [nest1] at hne
        split at hne
        · simp at hne
        · split at hne
          · rename_i hc
            simp only [Option.some.injEq] at hne; subst hne
            refine ⟨_, by rw [ho]; exact Opens.base _ hno', hpl', hbot', ?_, ?_⟩
            · simp [dead, isDef]
            · rw [live_dead (by simp [dead, isDef])]; exact himg
          · simp at hne
      · rw [hf] at hq
        simp only [Except.ok.injEq, Prod.mk.injEq] at hq
        rw [← hq.1]
        cases st with
        | nil => simp [nest1] at hne
        | cons d st =>
          simp only [nest1] at hne
          split at hne
          · rename_i hc
            simp only [Option.some.injEq] at hne; subst hne
            obtain ⟨rfl, _⟩ := hc
            have hall := placed_block hpl rfl
            refine ⟨_, by rw [ho]; exact Opens.base _ hno', hpl', hbot', ?_, ?_⟩
            · exact (all_dead hall).symm
            · rw [live_dead (by simp [dead, isDef])] at himg; exact himg
          · simp at hne
      · obtain ⟨k1, k2⟩ := stack_step hpl hne h2 h3
        rw [hf] at hq
        cases hi : r.ignore with
        | true =>
          rw [hi] at hq
          simp only [if_true, Except.ok.injEq, Prod.mk.injEq] at hq
          rw [← hq.1]
          rw [hi] at hign
          refine ⟨_, by rw [ho]; exact Opens.base _ hno', hpl', hbot', by rw [k1, hi, hign], ?_⟩
          rw [k2, ← hign]; exact himg
        | false =>
          rw [hi] at hq
          simp only [Bool.false_eq_true, if_false] at hq
          have hc := core_footnotes hq
          have hqo : q.footnotes.open_ = [] := by
            rw [hc.1]; unfold footAfter; split
            · rw [(reference_work _ _).2.1]; exact ho
            · exact ho
          rw [hi] at hign
          refine ⟨_, by rw [hqo]; exact Opens.base _ hno', hpl', hbot', by rw [k1, hc.2.1, hi, hign], ?_⟩
          rw [k2, ← hign, core_img hq, himg]; rfl

theorem MInv.run (es : List Event) : ∀ {st st' base : List Container} {r q : Renderer} {o : Out},
    MInv st base r → nest st es = some st' → r.pushEvents es = .ok (q, o) → ∃ base', MInv st' base' q := by
  induction es with
  | nil =>
    intro st st' base r q o h hne hq
    simp only [nest, Option.some.injEq] at hne
    simp only [Renderer.pushEvents, Except.ok.injEq, Prod.mk.injEq] at hq
    rw [← hne, ← hq.1]; exact ⟨base, h⟩
  | cons e es ih =>
    intro st st' base r q o h hne hq
    obtain ⟨st1, n1, n2⟩ := nest_cons hne
    obtain ⟨r1, o1, o2, q1, q2, _⟩ := push_cons hq
    have hd : e ≠ .end .document := by rintro rfl; rw [nest1_document] at n1; simp at n1
    rw [push_step _ _ hd] at q1
    obtain ⟨b1, g⟩ := h.step n1 q1
    exact ih g n2 q2

/-- At the end of the document nothing is open. -/
theorem main_end {i : Option Indentation} {body : List Event} (hd : nest [.document] body = some [.document])
    {q : Renderer} {o : Out} (h : (Renderer.new i).pushEvents body = .ok (q, o)) :
    q.footnotes.open_ = [] ∧ q.ignore = false ∧ q.imgAltText = 0 := by
  have hb : NoNote [.document] := by intro c hc l; simp at hc; subst hc; simp
  have h0 : MInv [.document] [.document] (Renderer.new i) :=
    ⟨Opens.base _ hb, rfl, ⟨[], rfl⟩, rfl, rfl⟩
  obtain ⟨b, g⟩ := h0.run _ hd h
  obtain ⟨h1, rfl⟩ := opens_document g.opens hb
  exact ⟨h1, g.ign, g.img⟩

end Jotdown.Html
