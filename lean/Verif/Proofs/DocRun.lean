import Verif.Proofs.ParseRun
import Verif.Spec.Doc
/-! # The events of the parser are those of the specification in Spec/Doc -/
namespace Jotdown
open Jotdown

variable {src : Bytes} {pre : PrePass}

/-! ## Runs -/

/-- A complete run of the parser; the flag tells whether blocks are read next. -/
inductive Runs : Parser → Bool → List (Event × Span) → Prop
  | inl {p p' e es} : p.inline = .ok (p', some e) → Runs p' false es → Runs p false (e :: es)
  | quiet {p p' es} : p.inline = .ok (p', none) → Runs p' true es → Runs p false es
  | emit {p p' e sp es} : p.blockStep = .ok (p', .emit e sp) → Runs p' false es → Runs p true ((e, sp) :: es)
  | cont {p p' es} : p.blockStep = .ok (p', .cont) → Runs p' true es → Runs p true es
  | fed {p p' es} : p.blockStep = .ok (p', .fed) → Runs p' false es → Runs p true es
  | stop {p p'} : p.blockStep = .ok (p', .stop) → p'.blockAttributes = none → Runs p true []
  | last {p p' x es} : p.blockStep = .ok (p', .stop) → p'.blockAttributes = some x → Runs p true es

theorem nextSpan_runs : ∀ (fuel : Nat) {p p' : Parser} {skip : Bool} {r : Option (Event × Span)} {es : List (Event × Span)},
    p.nextSpan fuel skip = .ok (p', r) → (r = none → es = []) → (∀ e, r = some e → ∃ es', es = e :: es' ∧ Runs p' false es') → Runs p skip es := by
  intro fuel
  induction fuel with
  | zero => intro p p' skip r es h; simp [Parser.nextSpan] at h
  | succ fuel ih =>
    intro p p' skip r es h hn hs
    unfold Parser.nextSpan at h
    obtain ⟨⟨q, r1⟩, h1, h⟩ := bind_ok h
    have key : ∀ {q : Parser}, (q.blockStep >>= fun x => match x with
          | (p, s) => match s with
            | .emit e sp => Pure.pure (p, some (e, sp))
            | .cont => Parser.nextSpan fuel p true
            | .fed => Parser.nextSpan fuel p false
            | .stop => match p.blockAttributes with
              | some (attrs, sp) => Pure.pure ({ p with blockAttributes := none }, some (.attributes attrs, sp))
              | none => Pure.pure (p, none)) = .ok (p', r) → Runs q true es := by
      intro q h
      obtain ⟨⟨q2, s⟩, h2, h⟩ := bind_ok h
      cases s with
      | emit e sp =>
        simp only [Pure.pure, Except.pure, Except.ok.injEq, Prod.mk.injEq] at h
        obtain ⟨rfl, rfl⟩ := h
        obtain ⟨es', rfl, hr⟩ := hs _ rfl
        exact .emit h2 hr
      | cont => exact .cont h2 (ih h hn hs)
      | fed => exact .fed h2 (ih h hn hs)
      | stop =>
        simp only at h
        cases hx : q2.blockAttributes with
        | none =>
          rw [hx] at h
          simp only [Pure.pure, Except.pure, Except.ok.injEq, Prod.mk.injEq] at h
          obtain ⟨rfl, rfl⟩ := h
          rw [hn rfl]
          exact .stop h2 hx
        | some y => exact .last h2 hx
    unfold Parser.inlineUnless at h1
    cases skip with
    | true =>
      simp only [if_true, Except.ok.injEq, Prod.mk.injEq] at h1
      obtain ⟨rfl, rfl⟩ := h1
      exact key h
    | false =>
      simp only [Bool.false_eq_true, if_false] at h1
      cases r1 with
      | some e =>
        simp only [Pure.pure, Except.pure, Except.ok.injEq, Prod.mk.injEq] at h
        obtain ⟨rfl, rfl⟩ := h
        obtain ⟨es', rfl, hr⟩ := hs _ rfl
        exact .inl h1 hr
      | none => exact .quiet h1 (key h)

theorem collect_runs : ∀ (fuel : Nat) {p : Parser} {es : List (Event × Span)}, p.collect fuel = .ok es → Runs p false es := by
  intro fuel
  induction fuel with
  | zero => intro p es h; simp [Parser.collect] at h
  | succ fuel ih =>
    intro p es h
    unfold Parser.collect at h
    obtain ⟨⟨q, r⟩, h1, h⟩ := bind_ok h
    refine nextSpan_runs _ h1 ?_ ?_
    · rintro rfl
      simpa [Pure.pure, Except.pure] using h.symm
    · rintro e rfl
      simp only at h
      obtain ⟨es', h2, h⟩ := bind_ok h
      simp only [Pure.pure, Except.pure, Except.ok.injEq] at h
      exact ⟨es', h.symm, ih h2⟩

/-! ## The inline part of the parser -/

/-- What matters for inline events. -/
def Parser.view (p : Parser) : Parser := { freshParser p.src p.prePass with inlineParser := p.inlineParser }

theorem inlineContainer_view (p : Parser) (c : Inline.Container) (enter : Bool) (attrs : Attr.Attributes) :
    p.view.inlineContainer c enter attrs = p.inlineContainer c enter attrs := by
  cases c <;> rfl

theorem inlineEvent_view (p : Parser) (e : Inline.Event) (attrs : Attr.Attributes) : p.view.inlineEvent e attrs = p.inlineEvent e attrs := by
  unfold Parser.inlineEvent
  simp only [inlineContainer_view]
  rfl

theorem inline_view (p : Parser) : p.inline = (p.view.inline).map (fun r => ({ p with inlineParser := r.1.inlineParser }, r.2)) := by
  unfold Parser.inline
  show (p.inlineParser.nextEvent >>= _) = (Except.map _ (p.inlineParser.nextEvent >>= _))
  cases p.inlineParser.nextEvent with
  | error e => rfl
  | ok r =>
    obtain ⟨ip, next⟩ := r
    simp only [Bind.bind, Except.bind]
    cases next with
    | none => rfl
    | some e =>
      simp only
      have h1 : ∀ ip e attrs, ({ p.view with inlineParser := ip } : Parser).inlineEvent e attrs = ({ p with inlineParser := ip } : Parser).inlineEvent e attrs :=
        fun ip e attrs => inlineEvent_view { p with inlineParser := ip } e attrs
      split
      · cases hx : ip.nextEvent with
        | error e => rfl
        | ok r =>
          obtain ⟨ip2, e2⟩ := r
          simp only
          cases hy : idx ip2.storeAttributes _ with
          | error e => rfl
          | ok a =>
            simp only
            cases e2 with
            | none => simp only; cases dassert a.isEmpty <;> rfl
            | some e2 =>
              simp only [h1]
              cases ({ p with inlineParser := ip2 } : Parser).inlineEvent e2 a with
              | error e => rfl
              | ok r =>
                simp only
                cases dassert r.2.isEmpty <;> rfl
      · simp only [h1]
        cases ({ p with inlineParser := ip } : Parser).inlineEvent e [] with
        | error e => rfl
        | ok r =>
          simp only
          cases dassert r.2.isEmpty <;> rfl

theorem view_inline {p p' : Parser} {r : Option (Event × Span)} (h : p.inline = .ok (p', r)) :
    p.view.inline = .ok (p'.view, r) ∧ p' = { p with inlineParser := p'.inlineParser } := by
  rw [inline_view] at h
  cases hx : p.view.inline with
  | error e => rw [hx] at h; simp [Except.map] at h
  | ok y =>
    rw [hx] at h
    simp only [Except.map, Except.ok.injEq, Prod.mk.injEq] at h
    obtain ⟨rfl, rfl⟩ := h
    have h2 : p.view.inline = (p.view.inline).map (fun r => ({ p.view with inlineParser := r.1.inlineParser }, r.2)) := inline_view p.view
    rw [hx] at h2
    simp only [Except.map, Except.ok.injEq] at h2
    refine ⟨?_, rfl⟩
    rw [h2]
    rfl

/-! ## Pending attributes -/

def PendIs (src : Bytes) (ba : Option (Attr.Attributes × Span)) (pend : List Span) : Prop :=
  (pend = [] ∧ ba = none) ∨ ∃ ini sp, pend = ini ++ [sp] ∧ ba = some (attrsIn src pend, cover pend sp)

theorem flush_snoc (ini : List Span) (sp : Span) : flush src (ini ++ [sp]) = [(.attributes (attrsIn src (ini ++ [sp])), cover (ini ++ [sp]) sp)] := by
  cases ini with
  | nil => rfl
  | cons a ini =>
    simp only [List.cons_append, flush]
    congr 3
    simp [List.getLast_cons]

theorem PendIs.take {p : Parser} {pend : List Span} (h : PendIs src p.blockAttributes pend) (sp : Span) :
    p.takeAttrs sp = ({ p with blockAttributes := none }, attrsIn src pend, cover pend sp) := by
  unfold Parser.takeAttrs
  rcases h with ⟨rfl, h⟩ | ⟨ini, sp', rfl, h⟩
  · rw [h]
    simp only
    rw [show ({ p with blockAttributes := none } : Parser) = p by rw [← h]]
    rfl
  · rw [h]
    simp only [cover]
    cases ini <;> rfl

theorem attrsAt_eq {sp : Span} {a : Attr.Attributes} (h : ∀ attrs, Attr.parseAttributes attrs (Block.sliceOf src sp) = .ok (.ok (attrs ++ a))) :
    attrsAt src sp = a := by
  unfold attrsAt Attr.tryFrom
  have := h []
  rw [List.nil_append] at this
  show (match Attr.parseAttributes [] (Block.sliceOf src sp) with | .ok (.ok a) => a | _ => []) = a
  rw [this]

/-! ## Names -/

theorem name_cont {c : Block.Container} (h : Block.Fine c) (head : Bool) : nodeName (idAt pre) head (.container c) = pubC pre c := by
  cases c with
  | list ty tight =>
    obtain ⟨c, h1, -⟩ := listContainer_ok (tight := tight) h
    unfold pubC
    simp only
    rw [h1]
    simp only
    unfold listContainer at h1
    cases ty with
    | description => cases h1; rfl
    | ordered n s => cases h1; rfl
    | unordered b =>
      simp only at h1
      unfold Bullet.ofByte at h1
      simp only [nodeName, listName]
      split at h1
      · rename_i b' hb
        cases h1
        split at hb
        · cases hb; simp [*]
        · split at hb
          · cases hb; simp [*]
          · split at hb
            · cases hb; simp [*]
            · cases hb
      · cases h1
    | task b =>
      simp only at h1
      unfold Bullet.ofByte at h1
      simp only [nodeName, listName]
      split at h1
      · rename_i b' hb
        cases h1
        split at hb
        · cases hb; simp [*]
        · split at hb
          · cases hb; simp [*]
          · split at hb
            · cases hb; simp [*]
            · cases hb
      · cases h1
  | listItem k => cases k <;> rfl
  | _ => rfl

theorem name_leaf (l : Block.Leaf) (head : Bool) : nodeName (idAt pre) head (.leaf l) = pubL pre head l := by
  cases l with
  | codeBlock lang =>
    unfold nodeName pubL
    simp only
    cases lang with
    | nil => rfl
    | cons c cs =>
      simp only [List.head?_cons, Option.some.injEq]
      split
      · rename_i h; subst h; rfl
      · rename_i h
        split
        · rename_i h'; injection h' with h1 h2; exact absurd h1 h
        · rfl
  | _ => rfl

/-! ## The invariant along a run -/

/-- The source of the inline parser stays the same. -/
def Keeps (src : Bytes) (pre : PrePass) (p : Parser) : Bool → Prop
  | false => (∃ S cap n m, Inv src pre S cap n m p) ∨ Done src p
  | true => p.inlineParser.input.src = src ∧ ((∃ S cap n m, Sat Never p.blockStep (StepOut src pre S cap n m p)) ∨ Done src p)

theorem InvB.src_eq {S : List Container} {cap : Bool} {n m : Nat} {p : Parser} (h : InvB src pre S cap n m p) : p.inlineParser.input.src = src := by
  cases h with
  | block h _ => exact h.rest.src_eq
  | leaf _ h _ _ => exact h.rest.src_eq

theorem OutEv.keeps {S : List Container} {cap : Bool} {n m : Nat} {p : Parser} {e : Event} {sp : Span} (h : OutEv src pre S cap n m p e sp) : Keeps src pre p false := by
  rcases h.next with ⟨-, -, -, -, h⟩ | ⟨S', cap', n', m', -, -, -, h⟩
  · exact .inr h
  · exact .inl ⟨_, _, _, _, h⟩

theorem Done.inline {p p' : Parser} {r : Option (Event × Span)} (h : Done src p) (h1 : p.inline = .ok (p', r)) : r = none ∧ Done src p' := by
  obtain ⟨ip, h2, h3, -⟩ := h.rest.next
  unfold Parser.inline at h1
  rw [h2] at h1
  simp only [Bind.bind, Except.bind, Pure.pure, Except.pure, Except.ok.injEq, Prod.mk.injEq] at h1
  obtain ⟨rfl, rfl⟩ := h1
  exact ⟨rfl, h.blocks, h3, h.pend⟩

theorem Keeps.some {p p' : Parser} {e : Event × Span} (h : Keeps src pre p false) (h1 : p.inline = .ok (p', some e)) : Keeps src pre p' false := by
  rcases h with ⟨S, cap, n, m, h⟩ | h
  · exact (h.inline.of_ok h1).keeps
  · have := (h.inline h1).1; cases this

theorem Keeps.none {p p' : Parser} (h : Keeps src pre p false) (h1 : p.inline = .ok (p', none)) : Keeps src pre p' true := by
  rcases h with ⟨S, cap, n, m, h⟩ | h
  · have := h.inline.of_ok h1
    exact ⟨this.2.2, .inl ⟨_, _, _, _, this.1⟩⟩
  · have := (h.inline h1).2
    exact ⟨this.rest.src_eq, .inr this⟩

theorem Done.step {p p' : Parser} {s : Step} (h : Done src p) (h1 : p.blockStep = .ok (p', s)) : s = .stop := by
  unfold Parser.blockStep at h1
  rw [h.blocks] at h1
  cases h1
  rfl

theorem Keeps.emit {p p' : Parser} {e : Event} {sp : Span} (h : Keeps src pre p true) (h1 : p.blockStep = .ok (p', .emit e sp)) : Keeps src pre p' false := by
  rcases h.2 with ⟨S, cap, n, m, h⟩ | h
  · exact OutEv.keeps (h.of_ok h1)
  · have := h.step h1; cases this

theorem Keeps.cont {p p' : Parser} (h : Keeps src pre p true) (h1 : p.blockStep = .ok (p', .cont)) : Keeps src pre p' true := by
  rcases h.2 with ⟨S, cap, n, m, h⟩ | h
  · have := (h.of_ok h1).1
    exact ⟨this.src_eq, .inl ⟨_, _, _, _, this.step⟩⟩
  · have := h.step h1; cases this

theorem Keeps.fed {p p' : Parser} (h : Keeps src pre p true) (h1 : p.blockStep = .ok (p', .fed)) : Keeps src pre p' false := by
  rcases h.2 with ⟨S, cap, n, m, h⟩ | h
  · exact .inl ⟨_, _, _, _, (h.of_ok h1).1⟩
  · have := h.step h1; cases this

end Jotdown
