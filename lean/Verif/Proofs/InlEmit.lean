import Verif.Proofs.InlNext
/-! # Emission of inline events -/
namespace Jotdown.Inline
open Jotdown
open Jotdown.Block
open Jotdown.Notation

variable {c : Cx}

/-- Events can be emitted without reading more input. -/
structure Emitting (c : Cx) (p : IP) : Prop where
  inp : InpOk c p.input
  attr : p.attributes = none
  verb : p.verbatim = none
  evs : EvsOk c.src p
  store : ∀ a ∈ p.storeAttributes, GoodAttrs a
  pot : weight p.events + 3 * (c.src.length - p.input.span.stop) ≤ c.K
  stay : (p.openers = [] ∧ ∀ e, p.events.getLast? = some e → e.kind ≠ .str) ∨ (p.input.last = true ∧ p.input.span.stop = p.input.spanLine.stop)

/-- The events to emit complete the open containers `st`. -/
structure Emit (c : Cx) (st : List Open) (p : IP) : Prop where
  base : Emitting c p
  tail : Tail (nts c p) st c.lo p.events p.input.span.stop

/-- The attributes `own` were just emitted, an event that takes them follows. -/
structure After (c : Cx) (st : List Open) (own : Attr.Attributes) (p : IP) : Prop where
  base : Emitting c p
  ex : ∃ e es, p.events = e :: es ∧ Fits c.lo e ∧
    ((e.kind = .empty ∧ WrittenAttrs (sliceOf c.src e.span) own ∧ Tail (nts c p) st e.span.stop es p.input.span.stop) ∨
      (∃ x, e.kind = .enter x ∧ Tail (nts c p) (⟨x, e.span, own, []⟩ :: st) e.span.stop es p.input.span.stop))

def Cx.dec (c : Cx) : Cx := { c with K := c.K - 1 }
def Cx.past (c : Cx) (e : Event) : Cx := { c with lo := e.span.stop, K := c.K - 1 }

theorem InpOk.congr {c' : Cx} {i : Input} (h : InpOk c i) (h1 : c'.src = c.src) (h2 : c'.cpl = c.cpl) (h3 : c'.H = c.H) (h4 : c'.more = c.more) : InpOk c' i := by
  refine ⟨h1 ▸ h.src, h2 ▸ h.cpl, h.le, h.stop, h1 ▸ h.bs, h1 ▸ h.be, h1 ▸ h.bl, ?_, ?_, ?_, ?_⟩
  · rw [h1]; exact h.rem
  · rw [h1, h3]; exact h.chain
  · rw [h1, h4, h3]; exact h.nl
  · rw [h1]; exact h.ls

/-- What an emitted event is, and the state after it. -/
structure Emitted (c : Cx) (st : List Open) (p : IP) (e : Event) : Prop where
  span : SpanOk c.src e.span
  kindOk : KindOk p.storeCowstrs.length p.storeAttributes.length e.kind
  text : KindText e.kind (sliceOf c.src e.span)
  next : match e.kind with
    | .enter x => c.lo ≤ e.span.start ∧ Emit (c.past e) (⟨x, e.span, [], []⟩ :: st) p
    | .exit x => c.lo ≤ e.span.start ∧ ∃ k st', st = k :: st' ∧ k.c = x ∧ Ends (nts c p) k.c k.o e.span k.own k.seen ∧ Emit (c.past e) st' p
    | .str => c.lo ≤ e.span.start ∧ e.span.start < e.span.stop ∧ Emit (c.past e) (addText st (sliceOf c.src e.span)) p
    | .atom _ => c.lo ≤ e.span.start ∧ Emit (c.past e) (addText st (evText c.src e)) p
    | .attributes _ i => ∃ own, p.storeAttributes[i]? = some own ∧ After c.dec st own p
    | _ => False

theorem Emitting.set {p : IP} (h : Emitting c p) {es : List Event} {lo : Nat} (he : ∀ e ∈ es, EvOk c.src p.storeCowstrs.length p.storeAttributes.length e)
    (hw : weight es + 1 ≤ weight p.events) (hl : ∀ x, es.getLast? = some x → p.events.getLast? = some x ∨ x.kind ≠ .str) :
    Emitting { c with lo := lo, K := c.K - 1 } { p with events := es } := by
  refine ⟨h.inp.congr rfl rfl rfl rfl, h.attr, h.verb, he, h.store, ?_, ?_⟩
  · have := h.pot
    simp only
    omega
  · rcases h.stay with ⟨h1, h2⟩ | h1
    · left
      refine ⟨h1, ?_⟩
      intro e he
      rcases hl e he with h3 | h3
      · exact h2 e h3
      · exact h3
    · exact .inr h1

theorem last_of_append {α : Type} {A B : List α} {x : α} (h : B.getLast? = some x) : (A ++ B).getLast? = some x := by
  cases B with
  | nil => simp at h
  | cons b B => rw [List.getLast?_append]; rw [h]; rfl

/-! ## Merging of texts -/

theorem Tail.plain_inv {N : Notes} {st : List Open} {n hi : Nat} {e : Event} {es : List Event} (h : Tail N st n (e :: es) hi) (hp : e.kind = .str ∨ e.kind = .placeholder) :
    Plain e ∧ Fits n e ∧ Tail N (addText st (evText N.src e)) e.span.stop es hi := by
  generalize hx : e :: es = L at h
  cases h with
  | nil => cases hx
  | leaf a b c => injection hx with h1 h2; subst h1 h2; exact ⟨a, b, c⟩
  | word a b c d e f => injection hx with h1 h2; subst h1; rw [a] at hp; simp at hp
  | enter a b c => injection hx with h1 h2; subst h1; rw [a] at hp; simp at hp
  | exit a b c d => injection hx with h1 h2; subst h1; rw [a] at hp; simp at hp
  | attr a b c d e => injection hx with h1 h2; subst h1; rw [a] at hp; simp at hp

structure Merged (N : Notes) (src : Bytes) (st : List Open) (hi : Nat) (sp : Span) (es : List Event) (r : Span × List Event) : Prop where
  start : r.1.start = sp.start
  stop : sp.stop ≤ r.1.stop
  span : SpanOk src r.1
  tail : Tail N (addText st (sliceOf src r.1)) r.1.stop r.2 hi
  suffix : ∃ A, es = A ++ r.2
  weight : weight r.2 + r.1.len ≤ weight es + sp.len

theorem mergeStr_ok {N : Notes} {src : Bytes} {st : List Open} {hi : Nat} {es : List Event} (hN : N.src = src) :
    ∀ {sp : Span}, SpanOk src sp → Tail N (addText st (sliceOf src sp)) sp.stop es hi → (∀ e ∈ es, SpanOk src e.span) → Merged N src st hi sp es (mergeStr sp es) := by
  induction es with
  | nil => intro sp h1 h2 _; exact ⟨rfl, Nat.le_refl _, h1, h2, ⟨[], rfl⟩, Nat.le_refl _⟩
  | cons e es ih =>
    intro sp h1 h2 h3
    unfold mergeStr
    split
    · rename_i hk
      obtain ⟨g0, g1, g2⟩ := h2.plain_inv hk.1
      have he := h3 e (by simp)
      have hle := h1.le
      have hle2 := he.le
      have m := ih (sp := ⟨sp.start, e.span.stop⟩) ⟨by simp only; omega, he.len, h1.bs, he.be⟩ (by
        have hev : sliceOf src ⟨sp.start, e.span.stop⟩ = sliceOf src sp ++ evText N.src e := by
          rw [← slice_append (b := sp.stop) hle (by omega) he.len]
          congr 1
          rcases hk.1 with h | h
          · simp only [evText, h, hN, hk.2]
          · rcases g0 with h' | ⟨_, h'⟩ | ⟨_, h'⟩
            · rw [h] at h'; cases h'
            · simp only [evText, h, hk.2, h', sliceOf, Nat.sub_self, List.take_zero]
            · rw [h] at h'; cases h'
        rw [hev, ← addText_add]
        exact g2) (fun x hx => h3 x (by simp [hx]))
      obtain ⟨A, hA⟩ := m.suffix
      have hst := m.stop
      have hw := m.weight
      simp only at hst
      refine ⟨m.start, by omega, m.span, m.tail, ⟨e :: A, by rw [List.cons_append, ← hA]⟩, ?_⟩
      have hwe : wt e = 1 + e.span.len := by
        unfold wt
        rcases hk.1 with h | h <;> rw [h]
      rw [weight_cons, hwe]
      unfold Span.len at *
      simp only at hw
      omega
    · exact ⟨rfl, Nat.le_refl _, h1, h2, ⟨[], rfl⟩, Nat.le_refl _⟩

theorem rposition_some {f : UInt8 → Bool} {s : Bytes} {i : Nat} (h : rposition f s = some i) : ∃ x, s[i]? = some x ∧ f x = true := by
  unfold rposition at h
  cases hf : s.reverse.findIdx? f with
  | none => rw [hf] at h; simp at h
  | some j =>
    rw [hf] at h
    simp at h
    rw [List.findIdx?_eq_some_iff_getElem] at hf
    obtain ⟨h1, h2, _⟩ := hf
    simp at h1
    rw [List.getElem_reverse] at h2
    subst h
    exact ⟨s[s.length - 1 - j], by rw [List.getElem?_eq_getElem], h2⟩

theorem isWs_lt {x : UInt8} (h : isWs x = true) : x < 128 := by
  exact ofFin (P := fun x => isWs x = true → x < 128) (by decide +kernel) x h

/-! ## One event -/

theorem applyWordAttributes_ok (hc : c.Ok) {st : List Open} {p : IP} {sp : Span} (hsp : SpanOk c.src sp) (hlo : c.lo ≤ sp.start) {p0 : IP} (h : Emitting c p0)
    (hp : p0.input = p.input ∧ p0.openers = p.openers ∧ p0.verbatim = p.verbatim ∧ p0.attributes = p.attributes ∧ p0.storeCowstrs = p.storeCowstrs ∧ p0.storeAttributes = p.storeAttributes)
    (ht : Tail (nts c p) (addText st (sliceOf c.src sp)) sp.stop p.events p.input.span.stop) (hw : wordAttrFront p.events = true) (hsuf : ∃ A, p0.events = A ++ p.events)
    (hwt : weight p.events + 1 + sp.len ≤ weight p0.events) :
    Sat Never (p.applyWordAttributes sp) (fun r => Emitted c st r.1 r.2 ∧ r.1.storeCowstrs = p.storeCowstrs ∧ r.1.storeAttributes = p.storeAttributes) := by
  obtain ⟨inp, os, ev0, vb, at0, sc, sa⟩ := p0
  obtain ⟨inp', os', evs, vb', at', sc', sa'⟩ := p
  simp only at *
  obtain ⟨rfl, rfl, rfl, rfl, rfl, rfl⟩ := hp
  obtain ⟨A, hA⟩ := hsuf
  have hevs : ∀ e ∈ evs, EvOk c.src sc.length sa.length e := fun e he => h.evs e (by show e ∈ ev0; rw [hA]; simp [he])
  unfold wordAttrFront at hw
  split at hw
  · rename_i b i asp rest
    generalize hx : (⟨.attributes false i, asp⟩ : Event) :: rest = L at ht
    generalize hst : addText st (sliceOf c.src sp) = st' at ht
    cases ht with
    | nil => cases hx
    | leaf a _ _ => injection hx with h1 h2; subst h1; simp [Plain] at a
    | enter a _ _ => injection hx with h1 h2; subst h1; cases a
    | exit a _ _ _ => injection hx with h1 h2; subst h1; cases a
    | attr a _ _ _ _ => injection hx with h1 h2; subst h1; cases a
    | @word _ _ _ a em es j w1 w2 w3 w4 ww w5 =>
      injection hx with h1 h2
      subst h1 h2
      simp only at w1 w3 w4 w5
      subst hst
      injection w1 with _ w1
      subst w1
      obtain ⟨own, ww1, ww2⟩ := ww
      have hee := hevs ⟨.attributes false i, asp⟩ (by simp)
      have hem := hevs em (by simp)
      have hspan := hsp.le
      have hlen := hsp.len
      have hwt1 : wt ⟨.attributes false i, asp⟩ = 2 := rfl
      have hwt2 : wt em = 1 := wt_kind (.inl w2)
      simp only [weight_cons, hwt1, hwt2] at hwt
      unfold IP.applyWordAttributes
      have hsl : strSlice inp.src sp.start sp.stop = .ok (sliceOf c.src sp) := by rw [h.inp.src]; exact hsp.slice
      simp only [hsl, Bind.bind, Except.bind]
      cases hr : rposition isWs (sliceOf c.src sp) with
      | some k =>
        simp only
        obtain ⟨x, hx1, hx2⟩ := rposition_some hr
        obtain ⟨hx3, hx4⟩ := slice_get (a := sp.start) (b := sp.stop) hx1
        have hbd := bd_after hc.safe hx3 (isWs_lt hx2)
        refine Sat.pure ⟨⟨⟨?_, ?_, hsp.bs, hbd⟩, trivial, trivial, ?_⟩, rfl, rfl⟩
        · simp only; omega
        · simp only; omega
        · simp only
          refine ⟨hlo, by omega, ?_, ?_⟩
          · refine h.set (es := ⟨.str, ⟨sp.start + k + 1, sp.stop⟩⟩ :: _) (lo := sp.start + k + 1) ?_ ?_ ?_
            · intro e he
              rcases List.mem_cons.1 he with rfl | he
              · exact ⟨⟨by simp only; omega, hlen, hbd, hsp.be⟩, trivial, trivial⟩
              · exact hevs e he
            · simp only [weight_cons, hwt1, hwt2]
              rw [wt_str rfl]
              unfold Span.len at *
              simp only
              omega
            · intro x hx
              left
              show ev0.getLast? = _
              rw [hA]
              rw [List.getLast?_cons_cons] at hx
              exact last_of_append hx
          · refine .leaf (.inl rfl) ⟨Nat.le_refl _, by simp only; omega⟩ (.word rfl w2 w3 w4 ⟨own, ww1, ww2⟩ ?_)
            rw [addText_add]
            have := slice_append (src := c.src) (a := sp.start) (b := sp.start + k + 1) (c := sp.stop) (by omega) (by omega) hlen
            have w5' := w5
            rw [show sliceOf c.src sp = _ from this.symm] at w5'
            exact w5'
      | none =>
        simp only
        have hlast : ∀ x, (em :: es).getLast? = some x → ev0.getLast? = some x := by
          intro x hx
          rw [hA]
          exact last_of_append (last_of_append (A := [_]) hx)
        cases hemp : sp.isEmpty with
        | true =>
          simp only [if_true]
          have h0 : sliceOf c.src sp = [] := by simp [Span.isEmpty] at hemp; simp [sliceOf, show sp.stop - sp.start = 0 by omega]
          rw [h0, addText_nil] at w5
          refine Sat.pure ⟨⟨hee.span, hee.kind, hee.text, ?_⟩, rfl, rfl⟩
          simp only
          refine ⟨own, ww1, h.set (lo := c.lo) (fun e he => hevs e (by simp only [List.mem_cons] at he ⊢; exact .inr he)) ?_ (fun x hx => .inl (hlast x hx)),
            em, es, rfl, ?_, .inl ⟨w2, by rw [w3]; exact ww2, by rw [w3]; exact w5⟩⟩
          · simp only [weight_cons, hwt2]
            omega
          · have f1 := w4.1
            have f2 := w4.2
            simp only at f1 f2
            unfold Fits
            rw [w3]
            simp only [Cx.dec]
            omega
        | false =>
          simp only [Bool.false_eq_true, if_false]
          rw [show dassert (em.kind == .empty) = .ok () by rw [w2]; rfl]
          simp only
          refine Sat.pure ⟨⟨hee.span, hee.kind, hee.text, ?_⟩, rfl, rfl⟩
          simp only
          refine ⟨own, ww1, h.set (es := ⟨.enter .span, ⟨sp.start, sp.start⟩⟩ :: ⟨.str, sp⟩ :: ⟨.exit .span, asp⟩ :: es) (lo := c.lo) ?_ ?_ ?_,
            _, _, rfl, ⟨hlo, Nat.le_refl _⟩, .inr ⟨.span, rfl, ?_⟩⟩
          · intro e he
            simp only [List.mem_cons] at he
            rcases he with rfl | rfl | rfl | he
            · exact ⟨hsp.at_start, trivial, trivial⟩
            · exact ⟨hsp, trivial, trivial⟩
            · exact ⟨hee.span, trivial, trivial⟩
            · exact hevs e (by simp [he])
          · simp only [weight_cons]
            rw [wt_kind (e := ⟨.enter .span, ⟨sp.start, sp.start⟩⟩) (.inr (.inr (.inl ⟨_, rfl⟩))), wt_kind (e := ⟨.exit .span, asp⟩) (.inr (.inr (.inr (.inl ⟨_, rfl⟩)))), wt_str rfl]
            simp only
            omega
          · intro x hx
            rw [List.getLast?_cons_cons, List.getLast?_cons_cons] at hx
            cases es with
            | nil =>
              right
              simp at hx
              subst hx
              simp
            | cons y es =>
              left
              rw [List.getLast?_cons_cons] at hx
              exact hlast x (by rw [List.getLast?_cons_cons]; exact hx)
          · exact .leaf (.inl rfl) ⟨Nat.le_refl _, hspan⟩ (.exit (k := ⟨.span, ⟨sp.start, sp.start⟩, own, [] ++ sliceOf c.src sp⟩) rfl w4 ⟨[], _, rfl, .inr ⟨by simp [sliceOf], rfl⟩, ww2⟩ w5)
  · cases hw

def EmitOut (c : Cx) (st : List Open) (p : IP) (r : IP × Option Event) : Prop :=
  r.1.storeCowstrs = p.storeCowstrs ∧ r.1.storeAttributes = p.storeAttributes ∧
  match r.2 with
  | none => Emit c.dec st r.1
  | some e => Emitted c st r.1 e

theorem emit_ok (hc : c.Ok) {st : List Open} {p : IP} (h : Emit c st p) {e : Event} {rest : List Event} (hev : p.events = e :: rest) :
    Sat Never (({ p with events := rest } : IP).emit e) (EmitOut c st p) := by
  have ht := h.tail
  rw [hev] at ht
  have hevs : ∀ x ∈ e :: rest, EvOk c.src p.storeCowstrs.length p.storeAttributes.length x := fun x hx => h.base.evs x (by rw [hev]; exact hx)
  have hee := hevs e (by simp)
  have hrest : ∀ x ∈ rest, EvOk c.src p.storeCowstrs.length p.storeAttributes.length x := fun x hx => hevs x (by simp [hx])
  have hlast : ∀ x, rest.getLast? = some x → p.events.getLast? = some x := by
    intro x hx; rw [hev]; exact last_of_append (A := [e]) hx
  have hw : weight rest + 1 ≤ weight p.events := by rw [hev, weight_cons]; have := wt_pos e; omega
  have hset : ∀ lo, Emitting { c with lo := lo, K := c.K - 1 } { p with events := rest } := fun lo => h.base.set hrest hw (fun x hx => .inl (hlast x hx))
  unfold IP.emit
  generalize hx : e :: rest = L at ht
  cases ht with
  | nil => cases hx
  | @leaf _ _ _ e' es a b d =>
    injection hx with h1 h2
    subst h1 h2
    rcases a with a | a | ⟨at_, a⟩
    · rw [a]
      simp only
      split
      · rename_i hemp
        have h0 : evText c.src e = [] := by
          simp [Span.isEmpty] at hemp
          simp [evText, a, sliceOf, show e.span.stop - e.span.start = 0 by omega]
        replace d : Tail (nts c p) (addText st (evText c.src e)) e.span.stop rest p.input.span.stop := d
        rw [h0, addText_nil] at d
        exact Sat.ok ⟨rfl, rfl, hset c.lo, d.lo b.le⟩
      · rename_i hne
        replace d : Tail (nts c p) (addText st (evText c.src e)) e.span.stop rest p.input.span.stop := d
        rw [show evText c.src e = sliceOf c.src e.span by simp [evText, a]] at d
        have hm := mergeStr_ok rfl hee.span d (fun x hx => (hrest x hx).span)
        have hstart := hm.start
        have hstop := hm.stop
        have hweight := hm.weight
        have hle := hee.span.le
        have hblo := b.1
        have hwe : wt e = 1 + e.span.len := wt_str a
        obtain ⟨A, hA⟩ := hm.suffix
        unfold IP.mergeStrEvents
        simp only
        refine Sat.bind (P := fun r => Emitted c st r.1 r.2 ∧ r.1.storeCowstrs = p.storeCowstrs ∧ r.1.storeAttributes = p.storeAttributes) ?_ ?_
        · split
          · rename_i hwf
            exact applyWordAttributes_ok hc (st := st) (p0 := p) hm.span (by omega) h.base ⟨rfl, rfl, rfl, rfl, rfl, rfl⟩ hm.tail hwf
              ⟨e :: A, by rw [hev, List.cons_append, ← hA]⟩ (by rw [hev, weight_cons, hwe]; simp only; omega)
          · rename_i hwf
            refine Sat.ok ⟨⟨hm.span, trivial, trivial, ?_⟩, rfl, rfl⟩
            simp only
            refine ⟨by omega, ?_, h.base.set (lo := (mergeStr e.span rest).1.stop) ?_ ?_ ?_, hm.tail⟩
            · cases hemp : e.span.isEmpty with
              | false =>
                simp [Span.isEmpty] at hemp
                omega
              | true =>
                rw [hemp] at hne
                simp at hne
                simp [Span.isEmpty] at hemp
                exfalso
                apply hwf
                unfold wordAttrFront at hne
                split at hne
                · rename_i i asp rest'
                  have : mergeStr e.span (⟨.attributes false i, asp⟩ :: rest') = (e.span, ⟨.attributes false i, asp⟩ :: rest') := by
                    unfold mergeStr; simp
                  rw [this]
                  rfl
                · cases hne
            · intro x hx
              exact hrest x (by rw [hA]; simp [hx])
            · rw [hev, weight_cons, hwe]
              unfold Span.len at *
              omega
            · intro x hx
              left
              apply hlast
              rw [hA]
              exact last_of_append hx
        · intro r ⟨r1, r2, r3⟩
          exact Sat.pure ⟨r2, r3, r1⟩
    · rw [a.1]
      replace d : Tail (nts c p) (addText st (evText c.src e)) e.span.stop rest p.input.span.stop := d
      rw [show evText c.src e = [] by simp [evText, a.1], addText_nil] at d
      exact Sat.ok ⟨rfl, rfl, hset c.lo, d.lo b.le⟩
    · rw [a]
      refine Sat.ok ⟨rfl, rfl, hee.span, hee.kind, hee.text, ?_⟩
      rw [a]
      exact ⟨b.1, hset e.span.stop, d⟩
  | @word _ _ _ a em es j w1 w2 w3 w4 ww w5 =>
    injection hx with h1 h2
    subst h1 h2
    rw [w1]
    refine Sat.ok ⟨rfl, rfl, hee.span, hee.kind, hee.text, ?_⟩
    rw [w1]
    obtain ⟨own, ww1, ww2⟩ := ww
    exact ⟨own, ww1, hset c.lo, em, es, rfl, by unfold Fits at *; rw [w3]; exact w4, .inl ⟨w2, by rw [w3]; exact ww2, by rw [w3]; exact w5⟩⟩
  | @enter _ _ _ _ x _ a b d =>
    injection hx with h1 h2
    subst h1 h2
    rw [a]
    refine Sat.ok ⟨rfl, rfl, hee.span, hee.kind, hee.text, ?_⟩
    rw [a]
    exact ⟨b.1, hset e.span.stop, d⟩
  | @exit st _ _ _ k _ a b w d =>
    injection hx with h1 h2
    subst h1 h2
    rw [a]
    refine Sat.ok ⟨rfl, rfl, hee.span, hee.kind, hee.text, ?_⟩
    rw [a]
    exact ⟨b.1, k, _, rfl, rfl, w, hset e.span.stop, d⟩
  | @attr _ _ _ a em x es j own w1 w2 w3 ww w4 =>
    injection hx with h1 h2
    subst h1 h2
    rw [w1]
    refine Sat.ok ⟨rfl, rfl, hee.span, hee.kind, hee.text, ?_⟩
    rw [w1]
    exact ⟨own, ww, hset c.lo, em, es, rfl, w3, .inr ⟨x, w2, w4⟩⟩

end Jotdown.Inline
