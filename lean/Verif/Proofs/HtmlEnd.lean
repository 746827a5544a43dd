import Verif.Proofs.HtmlStrip
/-! # The notes at the end -/
namespace Jotdown.Html
open Jotdown

/-- A paragraph. -/
def Node.isPara : Node → Bool
  | .elem .paragraph _ _ => true
  | _ => false

/-- The last node that leaves a trace is a paragraph. -/
def endsPara : List Node → Bool
  | [] => false
  | n :: ns => if ns.all Node.silent then n.isPara else endsPara ns

theorem nodeHtml_append {i : Option Indentation} {Ls : List Bytes} {tight : Bool} {d : Nat} (a b : List Node) :
    nodeHtml i Ls false tight d (a ++ b) = nodeHtml i Ls false tight d a ++ nodeHtml i Ls false tight d b := by
  induction a with
  | nil => rfl
  | cons n a ih => simp [nodeHtml, ih]

theorem silent_html {i : Option Indentation} {Ls : List Bytes} {tight : Bool} {d : Nat} (ns : List Node) (h : ns.all Node.silent = true) :
    nodeHtml i Ls false tight d ns = [] := by
  induction ns with
  | nil => rfl
  | cons n ns ih =>
    simp only [List.all_cons, Bool.and_eq_true] at h
    simp only [nodeHtml, Bool.false_and, ih h.2, List.append_nil]
    cases n with
    | elem => simp [Node.silent] at h
    | leaf e => cases e <;> first | (simp [Node.silent] at h; done) | rfl

theorem withLink_other (link n : Node) (ns : List Node) (hs : ns.all Node.silent = true) (hp : ¬ ∃ attrs kids, n = .elem .paragraph attrs kids) :
    withLink link (n :: ns) = n :: (ns ++ [.elem .paragraph [] [link]]) := by
  simp only [withLink, hs, if_true]
  cases n with
  | leaf => rfl
  | elem c a k => cases c <;> first | rfl | exact absurd ⟨_, _, rfl⟩ hp

/-- The link at the end of a note. -/
theorem withLink_html {i : Option Indentation} {Ls : List Bytes} {d : Nat} (link : Node) (ns : List Node) :
    if endsPara ns then ∃ x, nodeHtml i Ls false false d ns = x ++ b! "</p>" ∧ nodeHtml i Ls false false d (withLink link ns) = x ++ link.html i Ls false false d ++ b! "</p>"
    else nodeHtml i Ls false false d (withLink link ns) = nodeHtml i Ls false false d ns ++ layLine i false d ++ b! "<p>" ++ link.html i Ls false false d ++ b! "</p>" := by
  have own : (Node.elem .paragraph [] [link]).html i Ls false false d = layLine i false d ++ b! "<p>" ++ link.html i Ls false false d ++ b! "</p>" := by
    have : startTag .paragraph [] = b! "<p>" := by decide
    have h2 : endTag .paragraph = b! "</p>" := by decide
    simp [Node.html, nodeHtml, this, h2]
  induction ns with
  | nil =>
    simp only [endsPara, Bool.false_eq_true, if_false, withLink, nodeHtml, own, List.nil_append, List.append_nil]
  | cons n ns ih =>
    simp only [endsPara]
    by_cases hs : ns.all Node.silent = true
    · simp only [hs, if_true]
      by_cases hp : ∃ attrs kids, n = .elem .paragraph attrs kids
      · obtain ⟨attrs, kids, rfl⟩ := hp
        simp only [Node.isPara, if_true, withLink, hs]
        have h2 : endTag .paragraph = b! "</p>" := by decide
        refine ⟨layLine i false d ++ startTag .paragraph attrs ++ nodeHtml i Ls false false d kids, ?_, ?_⟩
        · simp [nodeHtml, silent_html ns hs, Node.html, h2]
        · simp only [nodeHtml, Bool.false_and, silent_html ns hs, Node.html, h2, nodeHtml_append, Bool.false_eq_true, if_false, List.append_nil, List.append_assoc]
      · have h1 : n.isPara = false := by
          cases n with
          | leaf => rfl
          | elem c a k => cases c <;> first | rfl | exact absurd ⟨_, _, rfl⟩ hp
        simp only [h1, Bool.false_eq_true, if_false]
        rw [withLink_other link n ns hs hp]
        simp only [nodeHtml, Bool.false_and, nodeHtml_append, own, List.append_nil, List.append_assoc]
    · simp only [hs, if_false, Bool.false_eq_true, withLink]
      by_cases he : endsPara ns = true
      · simp only [he, if_true] at ih ⊢
        obtain ⟨x, h1, h2⟩ := ih
        exact ⟨n.html i Ls false false d ++ x, by simp [nodeHtml, h1], by simp [nodeHtml, h2]⟩
      · simp only [he, if_false, Bool.false_eq_true] at ih ⊢
        simp [nodeHtml, ih]

/-! ## The flag -/

theorem silent_body (ns : List Node) (h : ns.all Node.silent = true) (r : Renderer) (u : Bool) : noteBody r (nodeEvents ns) u = .ok (r, u, []) := by
  induction ns with
  | nil => rfl
  | cons n ns ih =>
    simp only [List.all_cons, Bool.and_eq_true] at h
    cases n with
    | elem => simp [Node.silent] at h
    | leaf e =>
      have : e = .blankline ∨ e = .escape := by cases e <;> simp [Node.silent] at h <;> simp
      simp only [nodeEvents, Node.events, List.singleton_append]
      rw [noteBody_step, if_pos this, ih h.2]

theorem last_body {r q : Renderer} {a : List Event} {e : Event} {u u' : Bool} {o : Out} (he : ¬ (e = .blankline ∨ e = .escape))
    (h : noteBody r (a ++ [e]) u = .ok (q, u', o)) : u' = decide (e = .end .paragraph ∧ q.listTightness.head? ≠ some true) := by
  rw [noteBody_append] at h
  obtain ⟨⟨r1, u1, o1⟩, _, h⟩ := bind_ok h
  obtain ⟨⟨r2, u2, o2⟩, h2, h⟩ := bind_ok h
  obtain ⟨rfl, rfl, -⟩ : r2 = q ∧ u2 = u' ∧ _ := by simpa using h
  rw [noteBody_step, if_neg he] at h2
  obtain ⟨⟨r3, o3⟩, _, h2⟩ := bind_ok h2
  simp only [noteBody, Except.bind, Except.ok.injEq, Prod.mk.injEq] at h2
  obtain ⟨rfl, rfl, _⟩ := h2
  rfl

theorem node_last (n : Node) (hw : n.wf = true) (hs : n.silent = false) : ∃ a e, n.events = a ++ [e] ∧ ¬ (e = .blankline ∨ e = .escape) ∧ (decide (e = .end .paragraph) = n.isPara) := by
  cases n with
  | leaf e =>
    refine ⟨[], e, rfl, ?_, ?_⟩
    · rintro (rfl | rfl) <;> simp [Node.silent] at hs
    · have : e ≠ .end .paragraph := by rintro rfl; simp [Node.wf] at hw
      simp [Node.isPara, this]
  | elem c a k =>
    refine ⟨.start c a :: nodeEvents k, .end c, by simp [Node.events], by simp, ?_⟩
    cases c <;> simp [Node.isPara]

theorem body_flag (ns : List Node) (hw : nodesWf ns = true) : ∀ {r q : Renderer} {u u' : Bool} {o : Out}, q.listTightness.head? ≠ some true →
    noteBody r (nodeEvents ns) u = .ok (q, u', o) → u' = if ns.all Node.silent then u else endsPara ns := by
  induction ns with
  | nil => intro r q u u' o _ h; simp only [nodeEvents, noteBody, Except.ok.injEq, Prod.mk.injEq] at h; simp [h.2.1]
  | cons n ns ih =>
    intro r q u u' o hq h
    simp only [nodesWf, Bool.and_eq_true] at hw
    simp only [nodeEvents] at h
    rw [noteBody_append] at h
    obtain ⟨⟨r1, u1, o1⟩, h1, h⟩ := bind_ok h
    obtain ⟨⟨r2, u2, o2⟩, h2, h⟩ := bind_ok h
    obtain ⟨rfl, rfl, -⟩ : r2 = q ∧ u2 = u' ∧ _ := by simpa using h
    by_cases hs : ns.all Node.silent = true
    · simp only at h2
      rw [silent_body ns hs] at h2
      simp only [Except.ok.injEq, Prod.mk.injEq] at h2
      obtain ⟨rfl, rfl, _⟩ := h2
      simp only [List.all_cons, hs, Bool.and_true, endsPara, if_true]
      cases hn : n.silent with
      | true =>
        have := silent_body [n] (by simp [hn]) r u
        simp only [nodeEvents, List.append_nil] at this
        rw [this] at h1
        simp only [Except.ok.injEq, Prod.mk.injEq] at h1
        simp [h1.2.1]
      | false =>
        obtain ⟨a, e, he, hb, hp⟩ := node_last n hw.1 hn
        rw [he] at h1
        rw [last_body hb h1]
        rw [← hp]
        simp [hq]
    · rw [ih hw.2 hq h2]
      simp [hs, endsPara]

/-! ## One note -/

theorem note_or (fuel : Nat) : ∀ (evs : List Event) (r : Renderer) (u : Bool), (∀ e ∈ evs, e ≠ .end .document) →
    Renderer.note fuel r evs u = .error .fuel ∨ Renderer.note fuel r evs u = noteBody r evs u := by
  induction fuel with
  | zero => intro evs r u _; exact .inl rfl
  | succ fuel ih =>
    intro evs r u hd
    cases evs with
    | nil => exact .inr rfl
    | cons e es =>
      have hde := hd e (List.mem_cons_self ..)
      have hds : ∀ x ∈ es, x ≠ .end .document := fun x hx => hd x (List.mem_cons_of_mem _ hx)
      unfold noteBody
      simp only [Renderer.note]
      by_cases hb : e = .blankline ∨ e = .escape
      · rw [if_pos hb, if_pos hb]; exact ih es r u hds
      · rw [if_neg hb, if_neg hb]
        have hev : Renderer.event fuel r e = .error .fuel ∨ Renderer.event fuel r e = r.pushEvent e := by
          rw [push_step _ _ hde]
          cases fuel with
          | zero => exact .inl rfl
          | succ fuel => exact .inr (event_step _ _ _ hde)
        rcases hev with hev | hev
        · rw [hev]; exact .inl rfl
        · rw [hev]
          cases hp : r.pushEvent e with
          | error p => exact .inr rfl
          | ok x =>
            simp only [bind, Except.bind]
            rcases ih es x.1 (decide (e = .end .paragraph ∧ x.1.listTightness.head? ≠ some true)) hds with h | h
            · rw [h]; exact .inl rfl
            · rw [h]; exact .inr rfl

theorem backlink_html (i : Option Indentation) (Ls : List Bytes) (d n : Nat) :
    (backlink n).html i Ls false false d = b! "<a href=\"#fnref" ++ decimal n ++ b! "\" role=\"doc-backlink\">\u21A9\uFE0E</a>" := by
  simp [backlink, Node.html, nodeRaw]

/-- The item for a note: start, content and end. -/
theorem note_item {r : Renderer} {d n : Nat} {ns : List Node} (h : Ready (n + 1) r d false) (hc : nodesCovered ns = true) (hn : nodesNoNotes ns = true)
    (ho : r.footnotes.open_ = []) (hnum : r.footnotes.number = n + 1) :
    ∃ (g : Footnotes) (u : Bool) (o : Out), noteBody (r.beginNote (n + 1)).1 (nodeEvents ns) false = .ok ({ r with footnotes := g }, u, o)
      ∧ g.open_ = [] ∧ g.number = n + 1 ∧ g.references = (nodeRefs ns).foldl addRef r.footnotes.references ∧ g.events = r.footnotes.events
      ∧ (Renderer.endNote { r with footnotes := g } (n + 1) u).1 = { r with footnotes := g }
      ∧ ∀ Ls, g.references <+: Ls → ((r.beginNote (n + 1)).2 ++ o ++ (Renderer.endNote { r with footnotes := g } (n + 1) u).2).flatten = noteHtml r.indent Ls d (n + 1) ns := by
  have hf : r.firstLine = false := h.calm.first (Nat.succ_ne_zero _)
  have hb := block_zero r h.depth
  have hb1 : (r.beginNote (n + 1)).1 = r := hb.1
  rw [hb1]
  have shows := fun Ls => nodes_ok (Ls := Ls) ns r h hf hc (fun _ => hn)
  obtain ⟨g, g1, g2, g3, g4⟩ := shows ((nodeRefs ns).foldl addRef r.footnotes.references) r.footnotes ho hnum (List.prefix_refl _)
  obtain ⟨u, o, e1, e2⟩ := g4 false
  have hq : r.listTightness.head? ≠ some true := fun e => absurd (h.tig.2 e) (by simp)
  have hw := nodes_wf ns hc
  have hu : u = endsPara ns := by
    have := body_flag ns hw (q := { r with footnotes := g }) hq e1
    rw [this]
    split
    · rename_i hs
      cases ns with
      | nil => rfl
      | cons n ns =>
        simp only [List.all_cons, Bool.and_eq_true] at hs
        simp only [endsPara, hs.2, if_true]
        cases n with
        | leaf => rfl
        | elem => simp [Node.silent] at hs
    · rfl
  have hev := (noteBody_foot _ (nodeEvents_plain ns hw hn) ho e1).2.2.1
  have hbg := block_zero ({ r with footnotes := g } : Renderer) (d := d) h.depth
  have hend : (Renderer.endNote { r with footnotes := g } (n + 1) u).1 = { r with footnotes := g } := by
    unfold Renderer.endNote
    cases u <;> simp only [if_true, Bool.false_eq_true, if_false, hbg.1]
  refine ⟨g, u, o, e1, g1, g2, g3, hev, hend, ?_⟩
  intro Ls hp
  rw [g3] at hp
  obtain ⟨g', _, _, _, k4⟩ := shows Ls r.footnotes ho hnum hp
  obtain ⟨u', o', k1, k2⟩ := k4 false
  rw [e1] at k1
  simp only [Except.ok.injEq, Prod.mk.injEq] at k1
  obtain ⟨-, rfl, rfl⟩ := k1
  have hl := withLink_html (i := r.indent) (Ls := Ls) (d := d) (backlink (n + 1)) ns
  rw [← hu] at hl
  simp only [owed, Bool.false_eq_true, if_false, List.nil_append] at k2
  have hlay : (r.block 0).2.flatten = layLine r.indent false d := by rw [hb.2, hf]
  have hlay2 : (({ r with footnotes := g } : Renderer).block 0).2.flatten = layLine r.indent false d := by rw [hbg.2, hf]
  unfold noteHtml
  simp only [Renderer.beginNote, Renderer.endNote, List.flatten_append, hlay]
  cases u with
  | true =>
    simp only [if_true] at hl k2
    obtain ⟨x, l1, l2⟩ := hl
    have : o.flatten = x := by rw [l1] at k2; exact List.append_cancel_right k2
    simp only [if_true, l2, backlink_html, hlay2, this]
    simp
  | false =>
    simp only [Bool.false_eq_true, if_false, List.append_nil] at hl k2
    simp only [Bool.false_eq_true, if_false, hl, backlink_html, k2, hbg.1, List.flatten_append, hlay2]
    simp

/-! ## All notes -/

theorem notes_loop {T : List (Bytes × List Node)} (hT : ∀ l, nodesCovered (noteContent T l) = true ∧ nodesNoNotes (noteContent T l) = true) (fuel : Nat) : ∀ (r : Renderer) (d : Nat),
    (∀ m, Ready m r d false) → r.firstLine = false → r.footnotes.open_ = [] → LookOk (noteEvents T) r.footnotes → r.footnotes.references.Nodup →
    Renderer.notes fuel r = .error .fuel ∨ ∃ (g : Footnotes) (o : Out), Renderer.notes fuel r = .ok ({ r with footnotes := g }, o)
      ∧ NotesFrom (fun l => nodeRefs (noteContent T l)) r.footnotes.number r.footnotes.references g.references
      ∧ ∀ Ls, g.references <+: Ls → o.flatten = notesHtml r.indent Ls d T r.footnotes.number (g.references.drop r.footnotes.number) := by
  induction fuel with
  | zero => intros; exact .inl rfl
  | succ fuel ih =>
    intro r d hr hf ho hlook hnd
    unfold Renderer.notes
    cases hl : r.footnotes.references[r.footnotes.number]? with
    | none =>
      have hge : r.footnotes.references.length ≤ r.footnotes.number := by simpa using hl
      simp only [Footnotes.next, hl]
      refine .inr ⟨r.footnotes, [], rfl, .done hge, ?_⟩
      intro Ls _
      rw [List.drop_eq_nil_of_le hge]
      rfl
    | some label =>
      have hlt : r.footnotes.number < r.footnotes.references.length := by
        rw [List.getElem?_eq_some_iff] at hl; exact hl.1
      have hnot : label ∉ r.footnotes.references.take r.footnotes.number := by
        intro hmem
        rw [List.getElem?_eq_some_iff] at hl
        obtain ⟨h1, h2⟩ := hl
        rw [List.mem_take_iff_getElem] at hmem
        obtain ⟨j, hj, hj2⟩ := hmem
        have hjl : j < r.footnotes.references.length := by omega
        exact (List.pairwise_iff_getElem.1 hnd) j r.footnotes.number hjl h1 (by omega) (by rw [hj2, h2])
      have hlk := hlook label hnot
      rw [noteOf_content] at hlk
      simp only [Footnotes.next, hl]
      rw [hlk]
      generalize hf' : (Footnotes.mk r.footnotes.open_ r.footnotes.references
        (r.footnotes.events.filter (fun p => p.1 != label)) (r.footnotes.number + 1)) = f
      have hfo : f.open_ = [] := by rw [← hf']; exact ho
      have hfr : f.references = r.footnotes.references := by rw [← hf']
      have hfn : f.number = r.footnotes.number + 1 := by rw [← hf']
      have hfe : f.events = r.footnotes.events.filter (fun p => p.1 != label) := by rw [← hf']
      have hready : Ready (r.footnotes.number + 1) ({ r with footnotes := f } : Renderer) d false := by
        have := hr (r.footnotes.number + 1)
        exact ⟨this.1, ⟨this.2.1, this.2.2, this.2.3⟩, this.3, this.4, this.5⟩
      obtain ⟨hc, hn⟩ := hT label
      obtain ⟨g, u, o, e1, g1, g2, g3, g4, g5, g6⟩ := note_item hready hc hn hfo hfn
      rcases note_or fuel (nodeEvents (noteContent T label)) (Renderer.beginNote { r with footnotes := f } (r.footnotes.number + 1)).1 false
        (nodeEvents_noDoc _ (nodes_wf _ hc)) with hno | hno
      · rw [hno]; exact .inl rfl
      · rw [hno, e1]
        simp only [bind, Except.bind]
        rw [g5]
        simp only [hfr] at g3
        have hgn : g.number = r.footnotes.number + 1 := g2
        have hpre : r.footnotes.references <+: g.references := by rw [g3]; exact prefix_addRefs _ _
        have hlook2 : LookOk (noteEvents T) g := by
          intro l hnl
          have hlen := hpre.length_le
          have htake : g.references.take (r.footnotes.number + 1) = r.footnotes.references.take (r.footnotes.number + 1) := take_prefix hpre (by omega)
          rw [hgn, htake] at hnl
          have hne : l ≠ label := by
            rintro rfl
            apply hnl
            rw [List.getElem?_eq_some_iff] at hl
            obtain ⟨h1, h2⟩ := hl
            rw [List.mem_take_iff_getElem]
            exact ⟨r.footnotes.number, by omega, h2⟩
          simp only at g4
          rw [g4, hfe, find_filter_ne _ _ _ hne]
          refine hlook l (fun hm => hnl ?_)
          have := List.take_subset_take_left r.footnotes.references (Nat.le_succ r.footnotes.number)
          exact this hm
        have hready2 : ∀ m, Ready m ({ r with footnotes := g } : Renderer) d false := fun m => by
          have := hr m
          exact ⟨this.1, ⟨this.2.1, this.2.2, this.2.3⟩, this.3, this.4, this.5⟩
        have hnd2 : g.references.Nodup := by rw [g3]; exact addRef_nodup _ _ hnd
        rcases ih { r with footnotes := g } d hready2 hf g1 hlook2 hnd2 with hx | ⟨g', o', x1, x2, x3⟩
        · rw [hx]; exact .inl rfl
        · rw [x1]
          refine .inr ⟨g', _, rfl, ?_, ?_⟩
          · refine .note hl ?_
            rw [addRefs_distinct hnd, ← g3, ← hgn]
            exact x2
          · intro Ls hp
            simp only [hgn] at x2 x3
            have hgg := (x2.prefix hnd2).1
            have hdrop : g'.references.drop r.footnotes.number = label :: g'.references.drop (r.footnotes.number + 1) := by
              have hy : g'.references[r.footnotes.number]? = some label := by
                obtain ⟨t, ht⟩ := hpre.trans hgg
                rw [← ht, List.getElem?_append_left hlt, hl]
              rw [List.getElem?_eq_some_iff] at hy
              obtain ⟨h1, h2⟩ := hy
              rw [List.drop_eq_getElem_cons h1, h2]
            rw [hdrop, List.flatten_append, x3 Ls hp, g6 Ls (hgg.trans hp)]
            rfl

/-! ## The document -/

theorem single_push (r : Renderer) (e : Event) : r.pushEvents [e] = (r.pushEvent e).bind (fun x => .ok (x.1, x.2)) := by
  simp only [Renderer.pushEvents, bind, Except.bind, pure, Except.pure]
  cases r.pushEvent e with
  | error p => rfl
  | ok x => simp

theorem lookOk_tree {ns : List Node} (hw : nodesWf ns = true) {r q : Renderer} {o : Out} (h : r.pushEvents (nodeEvents ns) = .ok (q, o)) (ho : r.footnotes.open_ = [])
    (he : r.footnotes.events = []) (hn : q.footnotes.number = 0) : LookOk (noteEvents (nodeNotes ns)) q.footnotes := by
  intro l _
  have hp := (push_foot _ (nodeEvents_noDoc ns hw) h).1
  have hr := (footRun (nodeEvents ns) r.footnotes r.ignore).2.2.1
  rw [← hp, ho, he] at hr
  have hN := notesOf_nodes ns hw [] []
  simp only [List.append_nil, notesOpen, notesOf] at hN
  simp only at hr
  rw [hr, foldl_mapInsert, hN]
  unfold noteOf
  cases ((noteEvents (nodeNotes ns)).filter (fun p => p.1 == l)).getLast? <;> rfl

/-- The whole document. -/
theorem document_ok (i : Option Indentation) (attrs : Attr.Attributes) (ns : List Node) (hn : nodesCovered ns = true) :
    ∃ Ls, TreeNotes ns Ls ∧ (Renderer.new i).output (.start .document attrs :: (nodeEvents ns ++ [.end .document])) = .ok (documentHtml i Ls ns) := by
  have hfuel := C15_epilogue_terminates i (.start .document attrs :: (nodeEvents ns ++ [.end .document]))
  have h : Ready 0 (Renderer.new i) (startDepth i) false := by
    refine ⟨fun _ => rfl, ⟨rfl, rfl, by simp⟩, rfl, by simp [Renderer.new], fun _ => rfl⟩
  have s1 : (Renderer.new i).pushEvents [.start .document attrs] = .ok (Renderer.new i, []) := rfl
  have shows := fun Ls => nodes_first (Ls := Ls) (m := 0) ns (Renderer.new i) h hn (by simp)
  obtain ⟨g, g1, g2, g3, o, e1, e2⟩ := shows ((nodeRefs ns).foldl addRef []) (Renderer.new i).footnotes rfl rfl (List.prefix_refl _)
  have hout : ∀ Ls, g.references <+: Ls → o.flatten = nodeHtml i Ls true false (startDepth i) ns := by
    intro Ls hp
    rw [g3] at hp
    obtain ⟨g', _, _, _, o', k1, k2⟩ := shows Ls (Renderer.new i).footnotes rfl rfl hp
    have : o' = o := by
      have := e1.symm.trans k1
      simp only [Except.ok.injEq, Prod.mk.injEq] at this
      exact this.2.symm
    rw [← this, k2]
    rfl
  have hpush : (Renderer.new i).pushEvents (.start .document attrs :: (nodeEvents ns ++ [.end .document]))
      = (Renderer.pushEvent { Renderer.new i with firstLine := (Renderer.new i).firstLine && ns.all Node.hidden, footnotes := g } (.end .document)).bind (fun x => .ok (x.1, o ++ x.2)) := by
    show (Renderer.new i).pushEvents ([.start .document attrs] ++ (nodeEvents ns ++ [.end .document])) = _
    rw [pushEvents_app, s1]
    simp only [bind, Except.bind, pushEvents_app]
    have : (Renderer.new i).pushEvents (nodeEvents ns) = .ok ({ Renderer.new i with firstLine := (Renderer.new i).firstLine && ns.all Node.hidden, footnotes := g }, o) := e1
    rw [this]
    simp only [single_push, Except.bind, pure, Except.pure, List.nil_append]
    cases Renderer.pushEvent { Renderer.new i with firstLine := (Renderer.new i).firstLine && ns.all Node.hidden, footnotes := g } (.end .document) <;> rfl
  have hrefs : g.references = distinct (nodeRefs ns) := by rw [g3]; exact foldl_addRef_nil _
  have hlook := lookOk_tree (nodes_wf ns hn) e1 rfl rfl g2
  simp only at hlook
  unfold Renderer.output at hfuel ⊢
  rw [hpush] at hfuel ⊢
  unfold Renderer.pushEvent at hfuel ⊢
  generalize hfl : Renderer.fuel _ = fuel at hfuel ⊢
  have hfl2 : 8 ≤ fuel := by rw [← hfl]; unfold Renderer.fuel; omega
  obtain ⟨fuel, rfl⟩ : ∃ k, fuel = k + 2 := ⟨fuel - 2, by omega⟩
  have hev : ∀ q : Renderer, q.footnotes.open_ = [] → q.ignore = false → q.imgAltText = 0 → Renderer.event (fuel + 2) q (.end .document) =
      if q.footnotes.references.isEmpty then .ok (q, q.finalNewline)
      else (Renderer.notes fuel q.beginNotes.1).bind (fun x => .ok (x.1.endNotes.1, q.beginNotes.2 ++ x.2 ++ x.1.endNotes.2 ++ x.1.endNotes.1.finalNewline)) := by
    intro q h1 h2 h3
    have hfil : q.filter (.end .document) = none := by simp [Renderer.filter, h1, h2]
    conv => lhs; unfold Renderer.event
    rw [hfil]
    simp only [if_true, h3, Nat.lt_irrefl, if_false]
    conv => lhs; unfold Renderer.epilogue
    rfl
  rw [hev _ g1 rfl rfl] at hfuel ⊢
  by_cases hempty : g.references = []
  · simp only [hempty, List.isEmpty_nil, if_true]
    refine ⟨[], ?_, ?_⟩
    · unfold TreeNotes; rw [← hrefs, hempty]; exact .done (by simp)
    · simp only [bind, Except.bind, pure, Except.pure, List.flatten_append, hout [] (by simp [hempty])]
      unfold documentHtml endnotesHtml
      simp only [if_true, List.append_nil]
      cases i <;> simp [Renderer.finalNewline, Renderer.new]
  · have hne : g.references.isEmpty = false := by cases hh : g.references <;> simp_all
    have hfirst : ((Renderer.new i).firstLine && ns.all Node.hidden) = false := by
      cases ha : ns.all Node.hidden with
      | false => simp
      | true => rw [hrefs, hidden_refs ns ha] at hempty; exact absurd rfl hempty
    simp only [hne, Bool.false_eq_true, if_false] at hfuel ⊢
    rw [hfirst] at hfuel ⊢
    generalize hq : ({ Renderer.new i with firstLine := false, footnotes := g } : Renderer) = q at hfuel ⊢
    have hqf : q.footnotes = g := by rw [← hq]
    have hready : ∀ m, Ready m q (startDepth i) false := by
      intro m
      subst hq
      exact ⟨fun _ => rfl, ⟨rfl, rfl, fun _ => rfl⟩, rfl, by simp [Renderer.new], fun _ => rfl⟩
    have hqi : q.indent = i := by rw [← hq]; rfl
    have hb := block_zero q (hready 0).depth
    have hq1 : q.firstLine = false := by rw [← hq]
    rw [hq1, hqi] at hb
    have hbn : q.beginNotes.1 = q := by unfold Renderer.beginNotes; simp only [hb.1]
    rw [hbn] at hfuel ⊢
    rcases notes_loop (T := nodeNotes ns) (content_facts hn) fuel q (startDepth i) hready hq1 (by rw [hqf]; exact g1) (by rw [hqf]; exact hlook)
      (by rw [hqf, hrefs]; exact distinct_nodup _) with hx | ⟨g', o', x1, x2, x3⟩
    · rw [hx] at hfuel
      exact absurd rfl hfuel
    · rw [x1]
      refine ⟨g'.references, ?_, ?_⟩
      · unfold TreeNotes
        rw [hqf, g2, hrefs] at x2
        exact x2
      · have hpre : g.references <+: g'.references := by
          rw [hqf, g2] at x2
          exact (x2.prefix (by rw [hrefs]; exact distinct_nodup _)).1
        have hne' : g'.references ≠ [] := by
          intro e; rw [e] at hpre; exact hempty (List.prefix_nil.1 hpre)
        rw [hqf, g2, hqi] at x3
        have hx3 := x3 _ (List.prefix_refl _)
        rw [List.drop_zero] at hx3
        generalize hp : ({ q with footnotes := g' } : Renderer) = p
        have hpi : p.indent = i := by rw [← hp]; exact hqi
        have hbq := block_zero p (d := startDepth i) (by rw [← hp]; exact (hready 0).depth)
        have hp1 : p.firstLine = false := by rw [← hp]; exact hq1
        rw [hp1, hpi] at hbq
        have hen : p.endNotes.1 = p := by unfold Renderer.endNotes; simp only [hbq.1]
        simp only [bind, Except.bind, pure, Except.pure, List.flatten_append, hout _ hpre, hx3, hen]
        simp only [Renderer.beginNotes, Renderer.endNotes, hb.1, hb.2, hbq.1, hbq.2, List.flatten_append, Renderer.finalNewline, hpi]
        simp only [documentHtml, endnotesHtml, hne', if_false]
        cases i <;> simp
end Jotdown.Html
