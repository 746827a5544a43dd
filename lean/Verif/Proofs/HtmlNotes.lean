import Verif.Proofs.HtmlTwin
/-! # Rendering the endnotes -/
namespace Jotdown.Html
open Jotdown

/-- Two computations that both run out of the loop bound, or both succeed with related results. -/
def Both {α β : Type} (a : R α) (b : R β) (P : α → β → Prop) : Prop :=
  (a = .error .fuel ∧ b = .error .fuel) ∨ ∃ x y, a = .ok x ∧ b = .ok y ∧ P x y

theorem Both.ok {α β : Type} {x : α} {y : β} {P : α → β → Prop} (h : P x y) :
    Both (.ok x) (.ok y) P := .inr ⟨x, y, rfl, rfl, h⟩

theorem Both.bind {α β γ δ : Type} {a : R α} {b : R β} {P : α → β → Prop} {f : α → R γ} {g : β → R δ}
    {Q : γ → δ → Prop} (h : Both a b P) (h' : ∀ x y, P x y → Both (f x) (g y) Q) :
    Both (a >>= f) (b >>= g) Q := by
  rcases h with ⟨rfl, rfl⟩ | ⟨x, y, rfl, rfl, hp⟩
  · exact .inl ⟨rfl, rfl⟩
  · exact h' x y hp

/-! ## Layout -/

theorem Twin.block {r r' : Renderer} (h : Twin r r') (c : Int) :
    (r'.block c).2 = (r.block c).2 ∧ Twin (r.block c).1 (r'.block c).1 := by
  have he := h.eq
  have hb : r'.block c = ({ (r.block c).1 with footnotes := r'.footnotes }, (r.block c).2) := by
    conv => lhs; rw [he]
    exact block_swap _ _ _
  have hf := block_foot r c
  rw [hb]
  refine ⟨rfl, rfl, ?_, ?_, ?_, ?_⟩ <;> simp only [hf]
  · exact h.refs
  · exact h.num
  · exact h.opn
  · exact h.evs

theorem Rel.block {st : List Container} {r : Renderer} {m : Mode} (h : Rel st r m) (c : Int) :
    Rel st (r.block c).1 m := by
  obtain ⟨d, hd⟩ := block_fst r c
  rw [hd]
  exact h.mono h.opn rfl rfl rfl rfl rfl

/-- The stack bottom does not matter. -/
theorem Rel.root {c c' : Container} {r : Renderer} {m : Mode} (hc : holdsBlocks c = true) (hc' : holdsBlocks c' = true)
    (ht : tightness [c] = []) (ht' : tightness [c'] = []) (h : Rel [c] r m) : Rel [c'] r m := by
  have f := holds_facts hc
  have f' := holds_facts hc'
  have hd : dead [c] = false := by simp [dead, f.2.2]
  have hd' : dead [c'] = false := by simp [dead, f'.2.2]
  have i1 := h.img; have i2 := h.tig; have i3 := h.ign; have i4 := h.mode
  rw [live_not_dead hd] at i1 i2 i4
  refine ⟨h.opn, h.ind, h.raw, ?_, ?_, ?_, ?_, hc'⟩
  · rw [live_not_dead hd', i1]; simp [images, f.2.1, f'.2.1]
  · rw [live_not_dead hd', i2, ht, ht']
  · rw [i3, hd, hd']
  · rw [live_not_dead hd']; unfold ModeOk at *; simpa [images, f.2.1, f'.2.1] using i4

/-! ## Notes put aside -/

/-- Notes whose events are well nested and safe. -/
def NotesOk (m : List (Bytes × List Event)) : Prop :=
  ∀ p ∈ m, nest [.footnote p.1] p.2 = some [.footnote p.1] ∧ ∀ e ∈ p.2, NoFoot e ∧ SafeEvent e

theorem eraseCache_filter (m m' : List (Bytes × List Event)) (l : Bytes) (h : eraseCache m' = eraseCache m) :
    eraseCache (m'.filter (fun p => p.1 != l)) = eraseCache (m.filter (fun p => p.1 != l)) := by
  induction m generalizing m' with
  | nil => simp [eraseCache] at h; subst h; rfl
  | cons p m ih =>
    cases m' with
    | nil => simp [eraseCache] at h
    | cons p' m' =>
      simp only [eraseCache, List.map_cons, List.cons.injEq, Prod.mk.injEq] at h
      have := ih m' h.2
      simp only [List.filter_cons, h.1.1]
      split
      · simp only [eraseCache, List.map_cons, h.1.1, h.1.2] at this ⊢; rw [this]
      · exact this

theorem eraseCache_find (m m' : List (Bytes × List Event)) (l : Bytes) (h : eraseCache m' = eraseCache m) :
    (((m'.find? (fun p => p.1 == l)).map (·.2)).getD []).map eraseText =
      (((m.find? (fun p => p.1 == l)).map (·.2)).getD []).map eraseText := by
  induction m generalizing m' with
  | nil => simp [eraseCache] at h; subst h; rfl
  | cons p m ih =>
    cases m' with
    | nil => simp [eraseCache] at h
    | cons p' m' =>
      simp only [eraseCache, List.map_cons, List.cons.injEq, Prod.mk.injEq] at h
      have := ih m' h.2
      simp only [List.find?_cons, h.1.1]
      split
      · simpa using h.1.2
      · exact this

theorem eraseCache_size (m m' : List (Bytes × List Event)) (h : eraseCache m' = eraseCache m) :
    (m'.map (fun p => p.2.length)).sum = (m.map (fun p => p.2.length)).sum := by
  have e : ∀ m : List (Bytes × List Event), m.map (fun p => p.2.length) = (eraseCache m).map (fun p => p.2.length) := by
    intro m; simp [eraseCache, Function.comp_def]
  rw [e m', e m, h]

theorem Twin.fuel {r r' : Renderer} (h : Twin r r') : r'.fuel = r.fuel := by
  unfold Renderer.fuel
  rw [eraseCache_size _ _ h.evs, h.refs]

theorem next_twin {r r' : Renderer} (h : Twin r r') (hn : NotesOk r.footnotes.events) :
    (r.footnotes.next = none ∧ r'.footnotes.next = none) ∨
    ∃ n l evs evs' f f', r.footnotes.next = some ((n, evs), f) ∧ r'.footnotes.next = some ((n, evs'), f') ∧
      (evs.getD []).map eraseText = (evs'.getD []).map eraseText ∧
      Twin { r with footnotes := f } { r' with footnotes := f' } ∧ NotesOk f.events ∧ 0 < f.number ∧
      f.open_ = r.footnotes.open_ ∧
      nest [.footnote l] (evs.getD []) = some [.footnote l] ∧ ∀ e ∈ evs.getD [], NoFoot e ∧ SafeEvent e := by
  unfold Footnotes.next
  rw [h.refs, h.num]
  cases hl : r.footnotes.references[r.footnotes.number]? with
  | none => exact .inl ⟨rfl, rfl⟩
  | some label =>
    right
    refine ⟨_, label, _, _, _, _, rfl, rfl, (eraseCache_find _ _ _ h.evs).symm, ?_, ?_, Nat.succ_pos _, rfl, ?_⟩
    · refine ⟨?_, ?_, ?_, ?_, ?_⟩
      · rw [h.eq]
      · rfl
      · simp only [h.num]
      · exact h.opn
      · exact eraseCache_filter _ _ _ h.evs
    · intro p hp; exact hn p (List.mem_filter.1 hp).1
    · cases hf : r.footnotes.events.find? (fun p => p.1 == label) with
      | none => exact ⟨rfl, by simp⟩
      | some p =>
        have h1 := hn p (List.mem_of_find?_eq_some hf)
        have h2 : p.1 = label := by
          have := List.find?_some hf
          simpa using this
        rw [h2] at h1
        exact h1

/-! ## One note -/

theorem nest_cons {st st' : List Container} {e : Event} {es : List Event} (h : nest st (e :: es) = some st') :
    ∃ st1, nest1 st e = some st1 ∧ nest st1 es = some st' := by
  unfold nest at h
  split at h
  · simp at h
  · exact ⟨_, ‹_›, h⟩

theorem nest1_ne_nil {st st' : List Container} {e : Event} (h : nest1 st e = some st') (hst : st ≠ [])
    (h2 : ∀ c, e ≠ .end c) : st' ≠ [] := by
  cases e with
  | start c a =>
    simp only [nest1] at h
    split at h
    · simp at h
    · split at h
      · simp only [Option.some.injEq] at h; subst h; simp
      · simp at h
  | «end» c => exact absurd rfl (h2 c)
  | thematicBreak a => simp only [nest1] at h; split at h <;> simp at h; subst h; exact hst
  | _ => simp only [nest1, Option.some.injEq] at h; subst h; exact hst

/-- The paragraph left open at the end of a note. -/
def opened (u : Bool) : List Bytes := if u then [b! "p"] else []

/-- Stacks whose bottom is the footnote. -/
def Rooted (l : Bytes) (st : List Container) : Prop := ∃ seg, st = seg ++ [.footnote l]

theorem Rooted.ne {l : Bytes} {st : List Container} (h : Rooted l st) : st ≠ [] := by
  obtain ⟨seg, rfl⟩ := h; simp

theorem Rooted.nest1 {l : Bytes} {st st' : List Container} {e : Event} (h : Rooted l st) (hn : NoFoot e)
    (hne : nest1 st e = some st') : Rooted l st' := by
  obtain ⟨seg, rfl⟩ := h
  cases e with
  | start c a =>
    simp only [Jotdown.nest1] at hne
    split at hne
    · simp at hne
    · split at hne
      · simp only [Option.some.injEq] at hne; exact ⟨c :: seg, by rw [← hne]; rfl⟩
      · simp at hne
  | «end» c =>
    cases seg with
    | nil =>
      simp only [List.nil_append, Jotdown.nest1] at hne
      split at hne
      · rename_i hc; exact absurd (by rw [hc.1]) (hn.2 l)
      · simp at hne
    | cons d seg =>
      simp only [List.cons_append, Jotdown.nest1] at hne
      split at hne
      · simp only [Option.some.injEq] at hne; exact ⟨seg, hne.symm⟩
      · simp at hne
  | thematicBreak a =>
    simp only [Jotdown.nest1] at hne; split at hne <;> simp at hne; exact ⟨seg, hne.symm⟩
  | _ => simp only [Jotdown.nest1, Option.some.injEq] at hne; exact ⟨seg, hne.symm⟩

/-- What is shown of a note. -/
def NoteP (l : Bytes) (m : Mode) (S rest : List Bytes) (x y : Renderer × Bool × Out) : Prop :=
  x.2.1 = y.2.1 ∧ Twin x.1 y.1 ∧ Rel [.footnote l] x.1 .text ∧ NotesOk x.1.footnotes.events ∧
    0 < x.1.footnotes.number ∧ Run2 m S x.2.2 y.2.2 .text (opened x.2.1 ++ rest)

theorem eraseText_blank {e e' : Event} (h : eraseText e = eraseText e') :
    (e' = .blankline ∨ e' = .escape) ↔ (e = .blankline ∨ e = .escape) := by
  rcases eraseText_cases h with ⟨s, s', rfl, rfl⟩ | ⟨_, rfl⟩
  · simp
  · exact Iff.rfl

theorem eraseText_par {e e' : Event} (h : eraseText e = eraseText e') :
    (e' = .end .paragraph) ↔ (e = .end .paragraph) := by
  rcases eraseText_cases h with ⟨s, s', rfl, rfl⟩ | ⟨_, rfl⟩
  · simp
  · exact Iff.rfl

theorem nest1_document (st : List Container) : nest1 st (.end .document) = none := by
  cases st with
  | nil => rfl
  | cons d st => simp [nest1]

theorem eraseText_ne_document {e e' : Event} {st st' : List Container} (h : eraseText e = eraseText e')
    (hne : nest1 st e = some st') : e ≠ .end .document ∧ e' ≠ .end .document := by
  have : e ≠ .end .document := by rintro rfl; rw [nest1_document] at hne; simp at hne
  refine ⟨this, ?_⟩
  rcases eraseText_cases h with ⟨s, s', rfl, rfl⟩ | ⟨_, rfl⟩
  · simp
  · exact this

theorem closeP_run (u : Bool) {m : Mode} (hm : u = true → m = .text) (S : List Bytes) :
    Run2 m (opened u ++ S) (if u then [b! "</p>"] else []) (if u then [b! "</p>"] else []) m S := by
  cases u with
  | false => exact Run2.nil _ _
  | true =>
    rw [hm rfl]
    exact Run2.diag (T := [b! "/p"]) rfl (by simp [openAfterAll, openAfter, opened])

theorem htmlStack_foot (l : Bytes) : htmlStack (live [Container.footnote l]) = [] := rfl

theorem note_both (fuel : Nat) : ∀ (l : Bytes) (r r' : Renderer) (evs evs' : List Event) (u : Bool) (m : Mode)
    (st : List Container) (rest : List Bytes),
    Rel st r m → Twin r r' → NotesOk r.footnotes.events → 0 < r.footnotes.number →
    evs.map eraseText = evs'.map eraseText → nest st evs = some [.footnote l] →
    (∀ e ∈ evs, NoFoot e ∧ SafeEvent e) → Rooted l st → (u = true → m = .text) →
    Both (Renderer.note fuel r evs u) (Renderer.note fuel r' evs' u)
      (NoteP l m (opened u ++ htmlStack (live st) ++ rest) rest) := by
  induction fuel with
  | zero => intros; exact .inl ⟨by simp [Renderer.note], by simp [Renderer.note]⟩
  | succ fuel ih =>
    intro l r r' evs evs' u m st rest hr ht hno hnum hev hne hall hroot hu
    cases evs with
    | nil =>
      have : evs' = [] := by simpa using hev.symm
      subst this
      simp only [nest, Option.some.injEq] at hne
      subst hne
      simp only [Renderer.note]
      refine Both.ok ⟨rfl, ht, ?_, hno, hnum, ?_⟩
      · have := hr.mode
        have hm : m = .text := by simpa [ModeOk, live, images, dead, isDef, isImage] using this
        rw [hm] at hr; exact hr
      · have := hr.mode
        have hm : m = .text := by simpa [ModeOk, live, images, dead, isDef, isImage] using this
        rw [hm, htmlStack_foot, List.append_nil]; exact Run2.nil _ _
    | cons e es =>
      cases evs' with
      | nil => simp at hev
      | cons e' es' =>
        simp only [List.map_cons, List.cons.injEq] at hev
        obtain ⟨he, hes⟩ := hev
        obtain ⟨st1, hn1, hn2⟩ := nest_cons hne
        have hes2 : ∀ e ∈ es, NoFoot e ∧ SafeEvent e := fun x hx => hall x (List.mem_cons_of_mem _ hx)
        have hesafe := hall e (List.mem_cons_self ..)
        simp only [Renderer.note]
        by_cases hb : e = .blankline ∨ e = .escape
        · rw [if_pos hb, if_pos ((eraseText_blank he).2 hb)]
          have : st1 = st := by
            rcases hb with rfl | rfl <;> (simp only [nest1, Option.some.injEq] at hn1; exact hn1.symm)
          subst this
          exact ih l r r' es es' u m st1 rest hr ht hno hnum hes hn2 hes2 hroot hu
        · rw [if_neg hb, if_neg (fun h => hb ((eraseText_blank he).1 h))]
          have hdoc := eraseText_ne_document he hn1
          obtain ⟨q, q', o, o', m', h1, h2, htq, hrq, hk, hrun⟩ :=
            step_twin hr ht he hesafe.1 hn1 hesafe.2 hroot.ne
          cases fuel with
          | zero => exact .inl ⟨by simp [Renderer.event, bind, Except.bind], by simp [Renderer.event, bind, Except.bind]⟩
          | succ fuel =>
            rw [event_step fuel r e hdoc.1, event_step fuel r' e' hdoc.2, h1, h2]
            simp only [bind, Except.bind]
            have hlt : q'.listTightness = q.listTightness := by rw [htq.eq]
            have hu2 : (decide (e' = .end .paragraph ∧ q'.listTightness.head? ≠ some true)) =
                (decide (e = .end .paragraph ∧ q.listTightness.head? ≠ some true)) := by
              rw [hlt]; exact decide_eq_decide.2 (and_congr_left' (eraseText_par he))
            rw [hu2]
            generalize hud : decide (e = .end .paragraph ∧ q.listTightness.head? ≠ some true) = u2
            -- facts about a paragraph that ends here
            have hpar : e = .end .paragraph → st = .paragraph :: st1 := by
              rintro rfl
              cases st with
              | nil => exact absurd rfl hroot.ne
              | cons d st =>
                simp only [nest1] at hn1
                split at hn1
                · rename_i hc
                  simp only [Option.some.injEq] at hn1
                  rw [← hc.1, hn1]
                · simp at hn1
            have hpl : e = .end .paragraph → dead st1 = false ∧ images st1 = 0 ∧ dead st = false := by
              intro hp
              have hs := hpar hp
              have hpl := hr.placed
              rw [hs] at hpl
              have hall := placed_block hpl rfl
              refine ⟨all_dead hall, all_images hall, ?_⟩
              rw [hs]; exact dead_cons rfl (all_dead hall)
            have hpend : pending r e = opened u2 := by
              unfold pending opened
              by_cases hp : e = .end .paragraph
              · obtain ⟨d1, i1, d2⟩ := hpl hp
                have e1 : r.listTightness = q.listTightness := by
                  rw [hr.tig, hrq.tig, live_not_dead d1, live_not_dead d2, hpar hp]; rfl
                have hin : r.footnotes.inEpilogue = true := by simpa [Footnotes.inEpilogue] using hnum
                rw [← hud]
                simp only [hp, hin, true_and, Renderer.tight, e1, decide_eq_false_iff_not, decide_eq_true_eq]
              · rw [if_neg (fun h => hp h.1), ← hud]; simp [hp]
            have hum : u2 = true → m' = .text := by
              intro h'
              rw [h'] at hud
              simp only [decide_eq_true_eq] at hud
              obtain ⟨d1, i1, d2⟩ := hpl hud.1
              have := hrq.mode
              rw [live_not_dead d1] at this
              simpa [ModeOk, i1] using this
            rw [hpend] at hrun
            have hboth := ih l q q' es es' u2 m' st1 rest hrq htq (by rw [hk.1]; exact hno) (by rw [hk.2]; exact hnum)
              hes hn2 hes2 (hroot.nest1 hesafe.1 hn1) hum
            refine Both.bind hboth ?_
            rintro ⟨a, ua, oa⟩ ⟨b, ub, ob⟩ ⟨k1, k2, k3, k4, k5, k6⟩
            refine Both.ok ⟨k1, k2, k3, k4, k5, ?_⟩
            rw [List.append_assoc (opened u)]
            exact ((closeP_run u hu _).append (hrun rest)).append k6

/-! ## All notes -/

theorem Twin.beginNote {r r' : Renderer} (h : Twin r r') (n : Nat) :
    (r'.beginNote n).2 = (r.beginNote n).2 ∧ Twin (r.beginNote n).1 (r'.beginNote n).1 := by
  have := h.block 0
  simp only [Renderer.beginNote]
  exact ⟨by rw [this.1], this.2⟩

theorem Twin.endNote {r r' : Renderer} (h : Twin r r') (n : Nat) (u : Bool) :
    (r'.endNote n u).2 = (r.endNote n u).2 ∧ Twin (r.endNote n u).1 (r'.endNote n u).1 := by
  have := h.block 0
  cases u with
  | true => simp only [Renderer.endNote, if_true]; exact ⟨by rw [this.1], this.2⟩
  | false =>
    have h2 := this.2.block 0
    simp only [Renderer.endNote, Bool.false_eq_true, if_false]
    exact ⟨by rw [this.1, h2.1], h2.2⟩

theorem Twin.beginNotes {r r' : Renderer} (h : Twin r r') :
    r'.beginNotes.2 = r.beginNotes.2 ∧ Twin r.beginNotes.1 r'.beginNotes.1 := by
  have h1 := h.block 0
  have h2 := h1.2.block 0
  have h3 := h2.2.block 0
  simp only [Renderer.beginNotes]
  exact ⟨by rw [h1.1, h2.1, h3.1], h3.2⟩

theorem Twin.endNotes {r r' : Renderer} (h : Twin r r') :
    r'.endNotes.2 = r.endNotes.2 ∧ Twin r.endNotes.1 r'.endNotes.1 := by
  have h1 := h.block 0
  have h2 := h1.2.block 0
  simp only [Renderer.endNotes]
  exact ⟨by rw [h1.1, h2.1], h2.2⟩

theorem quiet_block {r : Renderer} (h : SafeIndent r.indent) (c : Int) (S : List Bytes) :
    Run2 .text S (r.block c).2 (r.block c).2 .text S :=
  Run2.quiet (block_plain h c).1 (block_plain h c).1

theorem block_indent (r : Renderer) (c : Int) : (r.block c).1.indent = r.indent := by
  obtain ⟨d, hd⟩ := block_fst r c; rw [hd]

theorem beginNote_run {r : Renderer} (h : SafeIndent r.indent) (n : Nat) (S : List Bytes) :
    Run2 .text S (r.beginNote n).2 (r.beginNote n).2 .text (b! "li" :: S) := by
  simp only [Renderer.beginNote]
  refine (quiet_block h 0 S).append ?_
  have hdig : c! '"' ∉ decimal n := fun hx => (digit_facts _ (decimal_digits _ _ hx)).2.1.2.1 rfl
  refine Run2.diag (T := [b! "li id="]) ?_ ?_
  · simp only [List.flatten_cons, List.flatten_nil, List.append_nil]
    rw [scan_append, show scan .text (b! "<li id=\"fn") = ([], .dquote (b! "li id=")) from rfl,
      scan_append, scan_dquote hdig]
    rfl
  · simp [openAfterAll, openAfter, voidElements, isWs, List.takeWhile]

theorem endNote_run {r : Renderer} (h : SafeIndent r.indent) (n : Nat) (u : Bool) (S : List Bytes) :
    Run2 .text (opened u ++ b! "li" :: S) (r.endNote n u).2 (r.endNote n u).2 .text S := by
  have hdig : c! '"' ∉ decimal n := fun hx => (digit_facts _ (decimal_digits _ _ hx)).2.1.2.1 rfl
  have key : Run2 .text (b! "p" :: b! "li" :: S) [b! "<a href=\"#fnref", decimal n,
      b! "\" role=\"doc-backlink\">\u21A9\uFE0E</a></p>"] [b! "<a href=\"#fnref", decimal n,
      b! "\" role=\"doc-backlink\">\u21A9\uFE0E</a></p>"] .text (b! "li" :: S) := by
    refine Run2.diag (T := [b! "a href= role=", b! "/a", b! "/p"]) ?_ ?_
    · simp only [List.flatten_cons, List.flatten_nil, List.append_nil]
      rw [scan_append, show scan .text (b! "<a href=\"#fnref") = ([], .dquote (b! "a href=")) from rfl,
        scan_append, scan_dquote hdig]
      rfl
    · simp [openAfterAll, openAfter, voidElements, isWs, List.takeWhile]
  have hli : Run2 .text (b! "li" :: S) [b! "</li>"] [b! "</li>"] .text S :=
    Run2.diag (T := [b! "/li"]) rfl (by simp [openAfterAll, openAfter])
  cases u with
  | true =>
    simp only [Renderer.endNote, if_true, List.nil_append]
    exact (key.append (quiet_block h 0 _)).append hli
  | false =>
    simp only [Renderer.endNote, Bool.false_eq_true, if_false, opened, List.nil_append]
    have hp : Run2 .text (b! "li" :: S) [b! "<p>"] [b! "<p>"] .text (b! "p" :: b! "li" :: S) :=
      Run2.diag (T := [b! "p"]) rfl (by simp [openAfterAll, openAfter, voidElements, isWs, List.takeWhile])
    have h2 : SafeIndent (r.block 0).1.indent := by rw [block_indent]; exact h
    exact ((((quiet_block h 0 _).append hp).append key).append (quiet_block h2 0 _)).append hli

theorem Rel.endNote {st : List Container} {r : Renderer} {m : Mode} (h : Rel st r m) (n : Nat) (u : Bool) :
    Rel st (r.endNote n u).1 m := by
  cases u with
  | true => exact h.block 0
  | false => exact (h.block 0).block 0

/-- What is shown of the rest of the notes. -/
def NotesP (rest : List Bytes) (x y : Renderer × Out) : Prop :=
  Twin x.1 y.1 ∧ SafeIndent x.1.indent ∧ Run2 .text rest x.2 y.2 .text rest

theorem tightness_foot (l : Bytes) : tightness [Container.footnote l] = [] := rfl

theorem notes_both (fuel : Nat) : ∀ (r r' : Renderer) (rest : List Bytes),
    Rel [.document] r .text → Twin r r' → NotesOk r.footnotes.events →
    Both (Renderer.notes fuel r) (Renderer.notes fuel r') (NotesP rest) := by
  induction fuel with
  | zero => intros; exact .inl ⟨by simp [Renderer.notes], by simp [Renderer.notes]⟩
  | succ fuel ih =>
    intro r r' rest hr ht hno
    rcases next_twin ht hno with ⟨h1, h2⟩ | ⟨n, l, evs, evs', f, f', h1, h2, hev, htf, hnf, hpos, hop, hne, hall⟩
    · unfold Renderer.notes
      rw [h1, h2]
      exact Both.ok ⟨ht, hr.ind, Run2.nil _ _⟩
    · unfold Renderer.notes
      rw [h1, h2]
      simp only
      have hrf : Rel [.document] { r with footnotes := f } .text :=
        hr.mono (by simp only [hop]; exact hr.opn) rfl rfl rfl rfl rfl
      have hb := htf.beginNote n
      have hbf := beginNote_foot { r with footnotes := f } n
      have hrb : Rel [.footnote l] ({ r with footnotes := f }.beginNote n).1 .text :=
        (hrf.block 0).root rfl rfl rfl rfl
      have hnote := note_both fuel l _ _ (evs.getD []) (evs'.getD []) false .text [.footnote l] (b! "li" :: rest)
        hrb hb.2 (by rw [hbf]; exact hnf) (by rw [hbf]; exact hpos) hev hne hall ⟨[], rfl⟩ (by simp)
      refine Both.bind hnote ?_
      rintro ⟨a, ua, oa⟩ ⟨b, ub, ob⟩ ⟨k1, k2, k3, k4, k5, k6⟩
      simp only at k1 k2 k3 k4 k5 k6
      subst k1
      simp only
      have he := k2.endNote n ua
      have hef := endNote_foot a n ua
      have hre : Rel [.document] (a.endNote n ua).1 .text := ((k3.endNote n ua)).root rfl rfl rfl rfl
      refine Both.bind (ih (a.endNote n ua).1 (b.endNote n ua).1 rest hre he.2 (by rw [hef]; exact k4)) ?_
      rintro ⟨x, ox⟩ ⟨y, oy⟩ ⟨j1, j2, j3⟩
      refine Both.ok ⟨j1, j2, ?_⟩
      simp only at j1 j2 j3 ⊢
      rw [hb.1, he.1]
      refine (((beginNote_run hrf.ind n rest).append ?_).append (endNote_run k3.ind n ua rest)).append j3
      simpa [opened, htmlStack_foot] using k6

theorem finalNewline_plain (r : Renderer) : Plain r.finalNewline.flatten := by
  unfold Renderer.finalNewline; split
  · exact ⟨by decide, by decide⟩
  · exact ⟨by decide, by decide⟩

theorem Twin.finalNewline {r r' : Renderer} (h : Twin r r') : r'.finalNewline = r.finalNewline := by
  unfold Renderer.finalNewline
  have : r'.indent = r.indent := by rw [h.eq]
  rw [this]

theorem beginNotes_run {r : Renderer} (h : SafeIndent r.indent) :
    Run2 .text [] r.beginNotes.2 r.beginNotes.2 .text [b! "ol", b! "section"] ∧ SafeIndent r.beginNotes.1.indent := by
  have h1 : SafeIndent (r.block 0).1.indent := by rw [block_indent]; exact h
  have h2 : SafeIndent ((r.block 0).1.block 0).1.indent := by rw [block_indent]; exact h1
  have h3 : SafeIndent (((r.block 0).1.block 0).1.block 0).1.indent := by rw [block_indent]; exact h2
  refine ⟨?_, h3⟩
  simp only [Renderer.beginNotes]
  have a1 : Run2 .text [] [b! "<section role=\"doc-endnotes\">"] [b! "<section role=\"doc-endnotes\">"] .text [b! "section"] :=
    Run2.diag (T := [b! "section role="]) rfl (by simp [openAfterAll, openAfter, voidElements, isWs, List.takeWhile])
  have a2 : Run2 .text [b! "section"] [b! "<hr>"] [b! "<hr>"] .text [b! "section"] :=
    Run2.diag (T := [b! "hr"]) rfl (by simp [openAfterAll, openAfter, voidElements, isWs, List.takeWhile])
  have a3 : Run2 .text [b! "section"] [b! "<ol>"] [b! "<ol>"] .text [b! "ol", b! "section"] :=
    Run2.diag (T := [b! "ol"]) rfl (by simp [openAfterAll, openAfter, voidElements, isWs, List.takeWhile])
  exact (((((quiet_block h 0 _).append a1).append (quiet_block h1 0 _)).append a2).append (quiet_block h2 0 _)).append a3

theorem endNotes_run {r : Renderer} (h : SafeIndent r.indent) :
    Run2 .text [b! "ol", b! "section"] r.endNotes.2 r.endNotes.2 .text [] := by
  have h1 : SafeIndent (r.block 0).1.indent := by rw [block_indent]; exact h
  simp only [Renderer.endNotes]
  have a1 : Run2 .text [b! "ol", b! "section"] [b! "</ol>"] [b! "</ol>"] .text [b! "section"] :=
    Run2.diag (T := [b! "/ol"]) rfl (by simp [openAfterAll, openAfter])
  have a2 : Run2 .text [b! "section"] [b! "</section>"] [b! "</section>"] .text [] :=
    Run2.diag (T := [b! "/section"]) rfl (by simp [openAfterAll, openAfter])
  exact (((quiet_block h 0 _).append a1).append (quiet_block h1 0 _)).append a2

theorem epilogue_both (fuel : Nat) (r r' : Renderer)
    (hr : Rel [.document] r .text) (ht : Twin r r') (hno : NotesOk r.footnotes.events) :
    Both (Renderer.epilogue fuel r) (Renderer.epilogue fuel r') (fun x y => Run2 .text [] x.2 y.2 .text []) := by
  cases fuel with
  | zero => exact .inl ⟨by simp [Renderer.epilogue], by simp [Renderer.epilogue]⟩
  | succ fuel =>
    unfold Renderer.epilogue
    rw [ht.refs]
    split
    · refine Both.ok ?_
      simp only [ht.finalNewline]
      exact Run2.quiet (finalNewline_plain r).1 (finalNewline_plain r).1
    · have hb := ht.beginNotes
      have hbr := beginNotes_run hr.ind
      have hrb : Rel [.document] r.beginNotes.1 .text := ((hr.block 0).block 0).block 0
      refine Both.bind (notes_both fuel r.beginNotes.1 r'.beginNotes.1 [b! "ol", b! "section"] hrb hb.2
        (by rw [beginNotes_foot]; exact hno)) ?_
      rintro ⟨x, ox⟩ ⟨y, oy⟩ ⟨j1, j2, j3⟩
      refine Both.ok ?_
      simp only at j1 j2 j3 ⊢
      have he := j1.endNotes
      rw [hb.1, he.1, he.2.finalNewline]
      exact ((hbr.1.append j3).append (endNotes_run j2)).append
        (Run2.quiet (finalNewline_plain _).1 (finalNewline_plain _).1)

end Jotdown.Html
