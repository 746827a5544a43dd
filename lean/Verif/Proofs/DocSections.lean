import Verif.Proofs.DocSem
import Verif.Props.Block
import Verif.Spec.Sections
/-! # Sections in the events of a document: the proof -/
namespace Jotdown
open Jotdown

variable {src : Bytes} {pre : PrePass}

theorem reads_inline {p p' : Parser} {es : List (Event × Span)} (h : Reads p es p') : p'.prePass = p.prePass ∧ ∀ e ∈ es, InlineEv p.prePass e.1 := by
  induction h with
  | none h => exact ⟨(inline_ok h).1, by simp⟩
  | some h _ ih =>
    obtain ⟨h1, -, h2⟩ := inline_ok h
    rw [h1] at ih
    refine ⟨ih.1, ?_⟩
    intro e he
    rcases List.mem_cons.1 he with rfl | he
    · exact h2 _ rfl
    · exact ih.2 e he

theorem lines_inline {p : Parser} {ls : List Span} {es : List (Event × Span)} (h : ReadsLines p ls es) : ∀ e ∈ es, InlineEv p.prePass e.1 := by
  induction h with
  | nil => simp
  | cons h1 h2 _ ih =>
    obtain ⟨h3, h4⟩ := reads_inline h2
    rw [h3] at ih
    intro e he
    rcases List.mem_append.1 he with he | he
    · exact h4 e he
    · exact ih e he

theorem content_inline {l : Block.Leaf} {ls : List Span} {cs : List (Event × Span)} (h : Content src pre l ls cs) : ∀ e ∈ cs, InlineEv pre e.1 := by
  cases h with
  | raw =>
    intro e he
    obtain ⟨_, _, rfl⟩ := List.mem_map.1 he
    trivial
  | parsed _ h => exact lines_inline h

theorem sec_inline {o : List Nat} {d : Nat} {cs : List (Event × Span)} (h : ∀ e ∈ cs, InlineEv pre e.1) (K : List Event) :
    secEvents o .content d (cs.map (·.1) ++ K) = secEvents o .content d K := by
  induction cs with
  | nil => rfl
  | cons e cs ih =>
    have h1 := h e (by simp)
    have ih := ih (fun x hx => h x (by simp [hx]))
    rw [List.map_cons, List.cons_append]
    obtain ⟨e, sp⟩ := e
    simp only at h1 ⊢
    conv => lhs; unfold secEvents
    cases e with
    | start c a => cases c <;> first | (cases h1.1; done) | exact ih
    | «end» c => cases c <;> first | (cases h1.1; done) | exact ih
    | thematicBreak => exact h1.elim
    | blankline => exact h1.elim
    | _ => exact ih

def secAt (ids : Nat → Bytes) : Block.SecPos → SecAt
  | .start p c => .start (ids p) c
  | .content => .content
  | .closed n => .closed n

theorem secAt_closed (ids : Nat → Bytes) (s : Block.SecPos) : (secAt ids s).lastClosed = s.lastClosed := by cases s <;> rfl

/-- Attributes on their own are allowed everywhere but after the start of a section. -/
theorem sec_flush {o : List Nat} {d : Nat} {s : SecAt} {pend : List Span} (hp : pend ≠ [] → ∀ p c, s ≠ .start p c) (K : List Event) :
    secEvents o s d ((flush src pend).map (·.1) ++ K) = secEvents o s d K := by
  cases pend with
  | nil => rfl
  | cons sp sps =>
    have := hp (by simp)
    simp only [flush, List.map_cons, List.map_nil, List.cons_append, List.nil_append]
    conv => lhs; unfold secEvents
    cases s with
    | start p c => exact absurd rfl (this p c)
    | _ => rfl

theorem nodeName_block {ids : Nat → Bytes} {head : Bool} {n : Block.Node} : isInline (nodeName ids head n) = false := by
  cases n with
  | container c =>
    cases c with
    | list ty t => cases ty <;> rfl
    | listItem k => cases k <;> rfl
    | _ => rfl
  | leaf l =>
    cases l with
    | codeBlock lang =>
      unfold nodeName
      simp only
      split <;> rfl
    | _ => rfl

theorem nodeName_section {ids : Nat → Bytes} {head : Bool} {n : Block.Node} {id : Bytes} (h : nodeName ids head n = .section id) : ∃ p, n = .container (.section p) ∧ ids p = id := by
  cases n with
  | container c =>
    cases c with
    | list ty t => cases ty <;> cases h
    | listItem k => cases k <;> cases h
    | «section» p => cases h; exact ⟨p, rfl, rfl⟩
    | _ => cases h
  | leaf l =>
    cases l with
    | codeBlock lang =>
      unfold nodeName at h
      simp only at h
      split at h <;> cases h
    | _ => cases h

theorem nodeName_heading {ids : Nat → Bytes} {head : Bool} {n : Block.Node} {k : Nat} {hs : Bool} {id : Bytes} (h : nodeName ids head n = .heading k hs id) :
    ∃ p, n = .leaf (.heading k hs p) ∧ ids p = id := by
  cases n with
  | container c =>
    cases c with
    | list ty t => cases ty <;> cases h
    | listItem k => cases k <;> cases h
    | _ => cases h
  | leaf l =>
    cases l with
    | codeBlock lang =>
      unfold nodeName at h
      simp only at h
      split at h <;> cases h
    | heading a b p => cases h; exact ⟨p, rfl, rfl⟩
    | _ => cases h

/-- A node in the content that is neither a section nor a heading. -/
theorem sec_start {o : List Nat} {d : Nat} {c : Container} {a : Attr.Attributes} (h1 : isInline c = false) (h2 : ∀ id, c ≠ .section id) (h3 : ∀ n hs id, c ≠ .heading n hs id) (K : List Event) :
    secEvents o .content d (.start c a :: K) = secEvents o .content (d + 1) K := by
  conv => lhs; unfold secEvents
  cases c <;> first | (cases h1; done) | (exact absurd rfl (h2 _)) | (exact absurd rfl (h3 _ _ _)) | rfl

theorem sec_end {o : List Nat} {d : Nat} {c : Container} (h1 : isInline c = false) (h2 : ∀ id, c ≠ .section id) (K : List Event) :
    secEvents o .content (d + 1) (.end c :: K) = secEvents o .content d K := by
  conv => lhs; unfold secEvents
  cases c <;> first | (cases h1; done) | (exact absurd rfl (h2 _)) | simp [isInline]

theorem walk_lines {o : List Nat} {d : Nat} {inl : List Block.Event} (h : ∀ i ∈ inl, i.kind = .inline) (K : List Block.Event) :
    Block.secWalk o .content d (inl ++ K) = Block.secWalk o .content d K := by
  induction inl with
  | nil => rfl
  | cons i inl ih =>
    rw [List.cons_append]
    conv => lhs; unfold Block.secWalk
    rw [h i (by simp)]
    exact ih (fun x hx => h x (by simp [hx]))

theorem walk_exit_leaf {o : List Nat} {d : Nat} {x : Block.Event} {l : Block.Leaf} (h : x.kind = .exit (.leaf l)) (K : List Block.Event) :
    Block.secWalk o .content (d + 1) (x :: K) = Block.secWalk o .content d K := by
  conv => lhs; unfold Block.secWalk
  rw [h]
  simp

theorem DocEvents.sections {head : Bool} {pend : List Span} {blocks : List Block.Event} {evs : List (Event × Span)} (h : DocEvents src pre head pend blocks evs) :
    ∀ {o : List Nat} {s : Block.SecPos} {d : Nat} {body : List Block.Event} {xd : Block.Event}, blocks = body ++ [xd] → xd.kind = .exit (.container .document) →
      Block.secWalk o s d body = true → (pend ≠ [] → ∀ p c, s ≠ .start p c) →
      ∃ evs' sp, evs = evs' ++ [(.end .document, sp)] ∧ secEvents o (secAt (idAt pre) s) d (evs'.map (·.1)) = true := by
  induction h with
  | nil => intro o s d body xd hb; simp at hb
  | @stale hd pend e es evs hk hr ih =>
    intro o s d body xd hb hx hw hp
    cases body with
    | nil => simp at hb; rw [hb.1] at hk; rw [hk] at hx; cases hx
    | cons e' body =>
      simp only [List.cons_append, List.cons.injEq] at hb
      obtain ⟨rfl, hb⟩ := hb
      unfold Block.secWalk at hw
      rw [hk] at hw
      cases s with
      | content => exact ih hb hx hw hp
      | _ => cases hw
  | @attributes hd pend e es evs hk hr ih =>
    intro o s d body xd hb hx hw hp
    cases body with
    | nil => simp at hb; rw [hb.1] at hk; rw [hk] at hx; cases hx
    | cons e' body =>
      simp only [List.cons_append, List.cons.injEq] at hb
      obtain ⟨rfl, hb⟩ := hb
      unfold Block.secWalk at hw
      rw [hk] at hw
      cases s with
      | start => cases hw
      | _ => exact ih hb hx hw (by intro _ p c h; cases h)
  | @blankline hd pend e es evs hk hr ih =>
    intro o s d body xd hb hx hw hp
    cases body with
    | nil => simp at hb; rw [hb.1] at hk; rw [hk] at hx; cases hx
    | cons e' body =>
      simp only [List.cons_append, List.cons.injEq] at hb
      obtain ⟨rfl, hb⟩ := hb
      unfold Block.secWalk at hw
      rw [hk] at hw
      cases s with
      | content =>
        obtain ⟨evs', sp, rfl, h2⟩ := ih hb hx hw (by simp)
        refine ⟨flush src pend ++ (.blankline, e.span) :: evs', sp, by simp, ?_⟩
        rw [List.map_append, sec_flush (by intro _ p c h; cases h)]
        exact h2
      | _ => cases hw
  | @thematicBreak hd pend e es evs hk hr ih =>
    intro o s d body xd hb hx hw hp
    cases body with
    | nil => simp at hb; rw [hb.1] at hk; rw [hk] at hx; cases hx
    | cons e' body =>
      simp only [List.cons_append, List.cons.injEq] at hb
      obtain ⟨rfl, hb⟩ := hb
      unfold Block.secWalk at hw
      rw [hk] at hw
      cases s with
      | content =>
        obtain ⟨evs', sp, rfl, h2⟩ := ih hb hx hw (by simp)
        refine ⟨_ :: evs', sp, by simp; rfl, ?_⟩
        simp only [List.map_cons]
        unfold secEvents
        exact h2
      | _ => cases hw
  | @enter hd pend e c es evs hk hr ih =>
    intro o s d body xd hb hx hw hp
    cases body with
    | nil => simp at hb; rw [hb.1] at hk; rw [hk] at hx; cases hx
    | cons e' body =>
      simp only [List.cons_append, List.cons.injEq] at hb
      obtain ⟨rfl, hb⟩ := hb
      unfold Block.secWalk at hw
      rw [hk] at hw
      by_cases hsec : ∃ p, c = .section p
      · obtain ⟨p, rfl⟩ := hsec
        cases s with
        | start => cases hw
        | content =>
          simp only [Bool.and_eq_true] at hw
          obtain ⟨evs', sp, rfl, h2⟩ := ih hb hx hw.2 (by simp)
          refine ⟨_ :: evs', sp, by simp; rfl, ?_⟩
          simp only [List.map_cons, nodeName]
          unfold secEvents
          refine Bool.and_eq_true_iff.2 ⟨hw.1, h2⟩
        | closed n =>
          simp only [Bool.and_eq_true] at hw
          obtain ⟨evs', sp, rfl, h2⟩ := ih hb hx hw.2 (by simp)
          refine ⟨_ :: evs', sp, by simp; rfl, ?_⟩
          simp only [List.map_cons, nodeName]
          unfold secEvents
          refine Bool.and_eq_true_iff.2 ⟨hw.1, h2⟩
      · have hns : ∀ p, c ≠ .section p := fun p hp => hsec ⟨p, hp⟩
        cases s with
        | start => cases c <;> cases hw
        | content =>
          have hw' : Block.secWalk o .content (d + 1) body = true := by
            cases c <;> first | exact hw | exact absurd rfl (hns _)
          obtain ⟨evs', sp, rfl, h2⟩ := ih hb hx hw' (by simp)
          refine ⟨_ :: evs', sp, by simp; rfl, ?_⟩
          simp only [List.map_cons]
          show secEvents o .content d _ = true
          rw [sec_start nodeName_block]
          · exact h2
          · intro id h; obtain ⟨p, hp, -⟩ := nodeName_section h; cases hp; exact hns _ rfl
          · intro n hs id h; obtain ⟨p, hp, -⟩ := nodeName_heading h; cases hp
        | closed n => cases c <;> first | (cases hw; done) | exact absurd rfl (hns _)
  | @exit hd pend e c es evs hk hr ih =>
    intro o s d body xd hb hx hw hp
    have hp' : pend ≠ [] → ∀ p c, secAt (idAt pre) s ≠ .start p c := by
      intro h p c
      cases s with
      | start p' c' => exact absurd rfl (hp h _ _)
      | _ => intro h; cases h
    cases body with
    | nil =>
      simp only [List.nil_append, List.cons.injEq] at hb
      obtain ⟨rfl, rfl⟩ := hb
      rw [hk] at hx
      cases hx
      cases hr
      refine ⟨flush src pend, e.span, by simp [nodeName], ?_⟩
      have := sec_flush (src := src) (o := o) (d := d) hp' []
      rw [List.append_nil] at this
      rw [this]
      unfold Block.secWalk at hw
      unfold secEvents
      cases s <;> exact hw
    | cons e' body =>
      simp only [List.cons_append, List.cons.injEq] at hb
      obtain ⟨rfl, hb⟩ := hb
      unfold Block.secWalk at hw
      rw [hk] at hw
      by_cases hsec : ∃ p, c = .section p
      · obtain ⟨p, rfl⟩ := hsec
        have key : ∀ (hs : ∀ p c, s ≠ .start p c) (n : Nat) (o' : List Nat), o = n :: o' → (d == 0) = true → Block.secWalk o' (.closed n) 0 body = true →
            ∃ evs' sp, flush src pend ++ (Event.end (nodeName (idAt pre) hd (.container (.section p))), e.span) :: evs = evs' ++ [(Event.end Container.document, sp)] ∧
              secEvents o (secAt (idAt pre) s) d (evs'.map (·.1)) = true := by
          intro hs n o' ho hd0 hw1
          subst ho
          obtain ⟨evs', sp, rfl, h2⟩ := ih hb hx hw1 (by simp)
          refine ⟨flush src pend ++ (.end (.section (idAt pre p)), e.span) :: evs', sp, by simp [nodeName], ?_⟩
          rw [List.map_append, sec_flush hp']
          simp only [List.map_cons]
          unfold secEvents
          cases s with
          | start => exact absurd rfl (hs _ _)
          | _ => simp only [secAt, Bool.and_eq_true]; exact ⟨hd0, h2⟩
        cases s with
        | start => cases hw
        | content =>
          simp only [Bool.and_eq_true] at hw
          cases o with
          | nil => cases hw.2
          | cons n o' => exact key (by intro p c h; cases h) n o' rfl hw.1 hw.2
        | closed m =>
          simp only [Bool.and_eq_true] at hw
          cases o with
          | nil => cases hw.2
          | cons n o' => exact key (by intro p c h; cases h) n o' rfl hw.1 hw.2
      · have hns : ∀ p, c ≠ .section p := fun p hp => hsec ⟨p, hp⟩
        cases s with
        | start => cases c <;> cases hw
        | closed => cases c <;> first | (cases hw; done) | exact absurd rfl (hns _)
        | content =>
          have hw' : (d != 0 && Block.secWalk o .content (d - 1) body) = true := by
            cases c <;> first | exact hw | exact absurd rfl (hns _)
          simp only [Bool.and_eq_true, bne_iff_ne, ne_eq] at hw'
          obtain ⟨d, rfl⟩ : ∃ d', d = d' + 1 := ⟨d - 1, by omega⟩
          obtain ⟨evs', sp, rfl, h2⟩ := ih hb hx hw'.2 (by simp)
          refine ⟨flush src pend ++ (_, _) :: evs', sp, by simp; exact ⟨rfl, rfl⟩, ?_⟩
          rw [List.map_append, sec_flush hp']
          simp only [List.map_cons]
          show secEvents o .content (d + 1) _ = true
          rw [sec_end nodeName_block]
          · exact h2
          · intro id h; obtain ⟨p, hp, -⟩ := nodeName_section h; cases hp; exact hns _ rfl
  | @leaf hd pend e l inl x es cs evs hk hi hx' hc hr ih =>
    intro o s d body xd hb hx hw hp
    obtain ⟨body', rfl, hes⟩ : ∃ body', body = e :: inl ++ x :: body' ∧ es = body' ++ [xd] := by
      rcases List.eq_nil_or_concat es with rfl | ⟨es', last, rfl⟩
      · have : (e :: inl) ++ [x] = body ++ [xd] := hb
        obtain ⟨-, h2⟩ := List.append_inj' this rfl
        cases h2
        rw [hx'] at hx; cases hx
      · have h1 : (e :: inl ++ x :: es') ++ [last] = body ++ [xd] := by rw [← hb]; simp
        obtain ⟨h3, h2⟩ := List.append_inj' h1 rfl
        cases h2
        exact ⟨es', h3.symm, by simp⟩
    have hcs := content_inline hc
    have fin : ∀ {o d}, Block.secWalk o .content d body' = true → ∃ evs' sp, evs = evs' ++ [(Event.end Container.document, sp)] ∧
        secEvents o .content (d + 1) (cs.map (·.1) ++ .end (nodeName (idAt pre) hd (.leaf l)) :: evs'.map (·.1)) = true := by
      intro o d hw
      obtain ⟨evs', sp, rfl, h2⟩ := ih hes hx hw (by simp)
      refine ⟨evs', sp, rfl, ?_⟩
      rw [sec_inline hcs, sec_end nodeName_block]
      · exact h2
      · intro id h; obtain ⟨p, hp, -⟩ := nodeName_section h; cases hp
    have put : ∀ {s' : Block.SecPos} {evs' : List (Event × Span)} {sp : Span}, evs = evs' ++ [(Event.end Container.document, sp)] →
        secEvents o (secAt (idAt pre) s') d (.start (nodeName (idAt pre) hd (.leaf l)) (attrsIn src pend) :: (cs.map (·.1) ++ .end (nodeName (idAt pre) hd (.leaf l)) :: evs'.map (·.1))) = true →
        ∃ evs' sp, (Event.start (nodeName (idAt pre) hd (.leaf l)) (attrsIn src pend), cover pend e.span) :: (cs ++ (Event.end (nodeName (idAt pre) hd (.leaf l)), x.span) :: evs) = evs' ++ [(Event.end Container.document, sp)] ∧
          secEvents o (secAt (idAt pre) s') d (evs'.map (·.1)) = true := by
      intro s' evs' sp he h
      refine ⟨(Event.start (nodeName (idAt pre) hd (.leaf l)) (attrsIn src pend), cover pend e.span) :: (cs ++ (Event.end (nodeName (idAt pre) hd (.leaf l)), x.span) :: evs'), sp, by rw [he]; simp, ?_⟩
      simpa using h
    rw [List.cons_append] at hw
    unfold Block.secWalk at hw
    rw [hk] at hw
    by_cases hh : ∃ n p, l = .heading n true p
    · obtain ⟨n, p, rfl⟩ := hh
      cases s with
      | start p' c =>
        simp only [Bool.and_eq_true] at hw
        obtain ⟨⟨⟨⟨w1, w2⟩, w3⟩, w4⟩, w5⟩ := hw
        rw [walk_lines hi, walk_exit_leaf hx'] at w5
        obtain ⟨evs', sp, rfl, h2⟩ := fin w5
        refine put rfl ?_
        unfold secEvents
        simp only [nodeName, secAt, Bool.and_eq_true]
        refine ⟨⟨⟨⟨?_, w2⟩, w3⟩, w4⟩, h2⟩
        simp only [beq_iff_eq] at w1 ⊢
        rw [w1]
      | content => simp at hw
      | closed => cases hw
    · cases s with
      | start p' c =>
        cases l with
        | heading n b p =>
          cases b with
          | true => exact absurd ⟨n, p, rfl⟩ hh
          | false => cases hw
        | _ => cases hw
      | closed n =>
        cases l with
        | heading n b p =>
          cases b with
          | true => exact absurd ⟨n, p, rfl⟩ hh
          | false => cases hw
        | _ => cases hw
      | content =>
        by_cases hh2 : ∃ n p, l = .heading n false p
        · obtain ⟨n, p, rfl⟩ := hh2
          simp only [Bool.and_eq_true] at hw
          obtain ⟨w1, w2⟩ := hw
          rw [walk_lines hi, walk_exit_leaf hx'] at w2
          obtain ⟨evs', sp, rfl, h2⟩ := fin w2
          refine put rfl ?_
          unfold secEvents
          simp only [nodeName, secAt, Bool.and_eq_true]
          exact ⟨w1, h2⟩
        · have hw' : Block.secWalk o .content (d + 1) (inl ++ x :: body') = true := by
            cases l with
            | heading n b p =>
              cases b with
              | true => exact absurd ⟨n, p, rfl⟩ hh
              | false => exact absurd ⟨n, p, rfl⟩ hh2
            | _ => exact hw
          rw [walk_lines hi, walk_exit_leaf hx'] at hw'
          obtain ⟨evs', sp, rfl, h2⟩ := fin hw'
          refine put (s' := .content) rfl ?_
          show secEvents o .content d _ = true
          rw [sec_start nodeName_block]
          · exact h2
          · intro id h; obtain ⟨p, hp, -⟩ := nodeName_section h; cases hp
          · intro n hs id h
            obtain ⟨p, hp, -⟩ := nodeName_heading h
            cases hp
            cases hs with
            | true => exact hh ⟨_, _, rfl⟩
            | false => exact hh2 ⟨_, _, rfl⟩

end Jotdown
